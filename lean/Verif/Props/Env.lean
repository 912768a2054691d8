import Verif.Spec.Env
import Verif.Lemmas.Env

/-!
C38-C41: environments.
-/

namespace Verif.Env
open Verif Spec

/-- A call that changes a `ConfigurationEnvironment`. -/
inductive EOp where
  | set (k : Kind) (key : String) (v : k.Val) (root : String)
  | load (file : Option CEnv) (root : String)

def eStep (e : CEnv) : EOp → CEnv
  | .set k key v root => cSet e k key v root
  | .load f root => (cLoad e f root).1

def eRun (e : CEnv) (ops : List EOp) : CEnv := ops.foldl eStep e

/-- The call sets the property of type `k` stored under the full key `fk`. -/
def EOp.sets (k : Kind) (fk : String) : EOp → Prop
  | .set k' key _ root => k' = k ∧ getFullKey key root = fk
  | .load _ _ => False

/-- The call may store something of type `k` under the full key `fk`. -/
def EOp.touches (k : Kind) (fk : String) : EOp → Prop
  | .set k' key _ root => k' = k ∧ getFullKey key root = fk
  | .load f root => ∃ o, f = some o ∧ ∃ p ∈ o.m k, getFullKey p.1 root = fk

theorem getFullKey_root (key : String) : getFullKey key "" = key := by simp [getFullKey]

theorem cGet_eq (e : CEnv) (k : Kind) (key : String) (d : k.Val) (root : String) :
    cGet e k key d root = readAs (find (e.m k) (getFullKey key root)) d := by
  simp only [cGet, propsGet, readAs]
  cases find (e.m k) (getFullKey key root) <;> rfl

theorem mGet_eq (e : MEnv) (k : Kind) (key : String) (d : k.Val) (root : String) :
    mGet e k key d root = readAs (find (e.m k) key) d := by
  simp only [mGet, readAs]
  cases find (e.m k) key <;> rfl

theorem read_snd {V : Type} (o : Option V) (d : V) : (readAs o d).2 = true ↔ o ≠ none := by cases o <;> simp [readAs]
theorem read_snd_false {V : Type} (o : Option V) (d : V) : (readAs o d).2 = false ↔ o = none := by cases o <;> simp [readAs]
theorem read_eq_some {V : Type} (o : Option V) (d v : V) : readAs o d = (v, true) ↔ o = some v := by cases o <;> simp [readAs]

/-! ## C40 -/

/-- **C40**: `copyFrom` (and so `loadFile`) keeps every property the target had, with its value. -/
theorem C40_keeps_existing (e o : CEnv) (ho : WF o) (root : String) (k : Kind) (key rt : String) (v d : k.Val)
    (h : cGet e k key d rt = (v, true)) : cGet (cCopy e o root).1 k key d rt = (v, true) := by
  rw [cGet_eq, read_eq_some] at h ⊢
  obtain ⟨post, hp⟩ := kinds_split k
  rw [cCopy_eq, hp, (chain_find e o root ho (before k) post k (hp ▸ allKinds_nodup) _).1 (by rw [h]; simp), h]

/-- **C40**: the result is `false` exactly if some property of the source existed already in the target under the root. -/
theorem C40_result (e o : CEnv) (ho : WF o) (root : String) :
    (cCopy e o root).2 = false ↔
      ∃ (k : Kind) (key : String), (∀ d, (cGet o k key d "").2 = true) ∧ (∀ d, (cGet e k key d root).2 = true) := by
  rw [← Bool.not_eq_true, cCopy_eq, (copy_chain e o root ho allKinds allKinds_nodup).2]
  constructor
  · intro h
    simp only [Fresh, Classical.not_forall] at h
    obtain ⟨k, _, p, hp, hn⟩ := h
    refine ⟨k, p.1, fun d => ?_, fun d => ?_⟩
    · rw [cGet_eq, read_snd, getFullKey_root]
      intro hc
      exact (find_none_iff _ _).mp hc p hp rfl
    · rw [cGet_eq, read_snd]; exact hn
  · rintro ⟨k, key, h1, h2⟩ hf
    have h1 := h1 (match k with | .string => "" | .bool => false | .int => (0 : Int) | .float => (0 : Nat))
    have h2 := h2 (match k with | .string => "" | .bool => false | .int => (0 : Int) | .float => (0 : Nat))
    rw [cGet_eq, read_snd, getFullKey_root] at h1
    rw [cGet_eq, read_snd] at h2
    obtain ⟨v, hv⟩ := Option.ne_none_iff_exists'.mp h1
    exact h2 (hf k (mem_allKinds k) _ (find_some_mem hv))

/-- **C40** (partial): a property of the source that is missing in the target is added if no property of an earlier type (string, bool,
int, float) was a duplicate.  Missing: the same without that condition, which is false of the code (`C40_violation_short_circuit`). -/
theorem C40_adds_missing_partial (e o : CEnv) (ho : WF o) (root : String) (k : Kind) (key : String) (v d : k.Val)
    (hb : ∀ k' ∈ before k, Fresh e o root k') (h : cGet o k key d "" = (v, true)) (hm : (cGet e k key d root).2 = false) :
    cGet (cCopy e o root).1 k key d root = (v, true) := by
  rw [cGet_eq, read_eq_some, getFullKey_root] at h
  rw [cGet_eq, read_snd_false] at hm
  rw [cGet_eq, read_eq_some]
  obtain ⟨post, hp⟩ := kinds_split k
  rw [cCopy_eq, hp, (chain_find e o root ho (before k) post k (hp ▸ allKinds_nodup) _).2.1 hm hb, find_map_fullKey, h]

/-- **C40**: when `copyFrom` reports success, every property of the source is in the target under the root. -/
theorem C40_success_adds_all (e o : CEnv) (ho : WF o) (root : String) (hr : (cCopy e o root).2 = true) (k : Kind) (key : String)
    (v d : k.Val) (h : cGet o k key d "" = (v, true)) : cGet (cCopy e o root).1 k key d root = (v, true) := by
  have hf : ∀ k ∈ allKinds, Fresh e o root k := by
    rw [cCopy_eq] at hr
    exact (copy_chain e o root ho allKinds allKinds_nodup).2.mp hr
  apply C40_adds_missing_partial e o ho root k key v d (fun k' _ => hf k' (mem_allKinds k')) h
  rw [cGet_eq, read_snd_false]
  rw [cGet_eq, read_eq_some, getFullKey_root] at h
  exact hf k (mem_allKinds k) _ (find_some_mem h)

/-- **C40**: `copyFrom` adds nothing else: a property of the result was in the target, or comes from the source with the root in front. -/
theorem C40_nothing_else (e o : CEnv) (ho : WF o) (root : String) (k : Kind) (key rt : String) (v d : k.Val)
    (h : cGet (cCopy e o root).1 k key d rt = (v, true)) :
    cGet e k key d rt = (v, true) ∨ ∃ key', getFullKey key' root = getFullKey key rt ∧ cGet o k key' d "" = (v, true) := by
  simp only [cGet_eq, read_eq_some, getFullKey_root] at h ⊢
  obtain ⟨post, hp⟩ := kinds_split k
  obtain ⟨h1, h2, h3⟩ := chain_find e o root ho (before k) post k (hp ▸ allKinds_nodup) (getFullKey key rt)
  rw [cCopy_eq, hp] at h
  cases hc : find (e.m k) (getFullKey key rt) with
  | some w => left; rw [← h, h1 (by rw [hc]; simp), hc]
  | none =>
    right
    by_cases hf : ∀ k' ∈ before k, Fresh e o root k'
    · rw [h2 hc hf] at h
      obtain ⟨p, hp1, hp2⟩ := List.mem_map.mp (find_some_mem h)
      obtain ⟨hp3, hp4⟩ := Prod.mk.inj hp2
      refine ⟨p.1, hp3, ?_⟩
      rw [← hp3, find_map_fullKey] at h
      exact h
    · rw [h3 hc hf] at h; cases h

/-- **C40**: `loadFile` gives `false` exactly if the file cannot be read or some property of the file existed already under the root. -/
theorem C40_load_result (e : CEnv) (file : Option CEnv) (hf : ∀ o, file = some o → WF o) (root : String) :
    (cLoad e file root).2 = false ↔ file = none ∨
      ∃ o, file = some o ∧
        ∃ (k : Kind) (key : String), (∀ d, (cGet o k key d "").2 = true) ∧ (∀ d, (cGet e k key d root).2 = true) := by
  cases file with
  | none => simp [cLoad]
  | some o =>
    simp only [cLoad, C40_result e o (hf o rfl) root]
    simp

/-- **C40**: a file that cannot be read changes no property. -/
theorem C40_unreadable_unchanged (e : CEnv) (root : String) (k : Kind) (key rt : String) (d : k.Val) :
    cGet (cLoad e none root).1 k key d rt = cGet e k key d rt := rfl

/-- **C40**: an environment in memory loads no files: it says so and changes no property. -/
theorem C40_memory_loads_nothing (e : MEnv) (k : Kind) (key rt : String) (d : k.Val) :
    (mLoad e).2 = false ∧ mGet (mLoad e).1 k key d rt = mGet e k key d rt := ⟨rfl, rfl⟩

/-- An environment with one string and one integer. -/
def twoProps (s : String) (i : String) : CEnv :=
  cSet (cSet .empty .string s "x" "") .int i (7 : Int) ""

/-- **C40 violation**: one duplicate string, and the integers of the file are not loaded although none of them existed. -/
theorem C40_violation_short_circuit :
    ∃ (e o : CEnv), WF o ∧ cGet o .int "i" (0 : Int) "" = ((7 : Int), true) ∧ (cGet e .int "i" (0 : Int) "").2 = false ∧
      cGet (cLoad e (some o) "").1 .int "i" (0 : Int) "" = ((0 : Int), false) :=
  ⟨cSet .empty .string "s" "y" "", twoProps "s" "i", wf_cSet (wf_cSet wf_empty _ _ _ _) _ _ _ _, by decide +kernel, by decide +kernel,
    by decide +kernel⟩

/-- Non-trivial instance: a target with one property, a source with two; both arrive, the old one stays. -/
example : (cCopy (cSet .empty .string "z" "y" "") (twoProps "s" "i") "node").2 = true ∧
    cGet (cCopy (cSet .empty .string "z" "y" "") (twoProps "s" "i") "node").1 .int "i" (0 : Int) "node" = ((7 : Int), true) ∧
    cGet (cCopy (cSet .empty .string "z" "y" "") (twoProps "s" "i") "node").1 .string "z" "" "" = ("y", true) := by decide +kernel

/-! ## C38 -/

/-- **C38**: after a property has been set it is read back, with `true`, whatever is set or loaded later, until the same type and full key
is set again.  (Loading a file never overwrites.)
Missing: the other environments (C38_violation_*). -/
theorem C38_last_write_partial (e : CEnv) (k : Kind) (key : String) (v d : k.Val) (root : String) (ops : List EOp)
    (hw : ∀ f root', .load (some f) root' ∈ ops → WF f) (hno : ∀ op ∈ ops, ¬ op.sets k (getFullKey key root)) :
    cGet (eRun (cSet e k key v root) ops) k key d root = (v, true) := by
  have hs : cGet (cSet e k key v root) k key d root = (v, true) := by
    rw [cGet_eq, read_eq_some, find_cSet]; simp
  generalize cSet e k key v root = e' at hs
  induction ops generalizing e' with
  | nil => exact hs
  | cons op ops ih =>
    simp only [eRun, List.foldl_cons]
    apply ih (fun f r h => hw f r (by simp [h])) (fun op h => hno op (by simp [h]))
    have hop := hno op (by simp)
    cases op with
    | set k' key' v' root' =>
      rw [cGet_eq, read_eq_some] at hs ⊢
      simp only [eStep, find_cSet]
      split
      · next h =>
        subst h
        rw [if_neg]
        · exact hs
        · intro h2; exact hop ⟨rfl, h2.symm⟩
      · exact hs
    | load f root' =>
      cases f with
      | none => exact hs
      | some o => exact C40_keeps_existing e' o (hw o root' (by simp)) root' k key root v d hs

/-- **C38**: a property never set or loaded gives the default, and `false`. -/
theorem C38_never_written (k : Kind) (key : String) (d : k.Val) (root : String) (ops : List EOp)
    (hw : ∀ f root', .load (some f) root' ∈ ops → WF f) (hno : ∀ op ∈ ops, ¬ op.touches k (getFullKey key root)) :
    cGet (eRun .empty ops) k key d root = (d, false) := by
  have hs : find (CEnv.empty.m k) (getFullKey key root) = none := rfl
  rw [cGet_eq]
  suffices find ((eRun .empty ops).m k) (getFullKey key root) = none by rw [this]; rfl
  generalize CEnv.empty = e' at hs
  induction ops generalizing e' with
  | nil => exact hs
  | cons op ops ih =>
    simp only [eRun, List.foldl_cons]
    apply ih (fun f r h => hw f r (by simp [h])) (fun op h => hno op (by simp [h]))
    have hop := hno op (by simp)
    cases op with
    | set k' key' v' root' =>
      simp only [eStep, find_cSet]
      split
      · next h =>
        subst h
        rw [if_neg]
        · exact hs
        · intro h2; exact hop ⟨rfl, h2.symm⟩
      · exact hs
    | load f root' =>
      cases f with
      | none => exact hs
      | some o =>
        have hwo : WF o := hw o root' (by simp)
        have := C40_nothing_else e' o hwo root' k key root
        cases hc : find ((eStep e' (.load (some o) root')).m k) (getFullKey key root) with
        | none => rfl
        | some v =>
          exfalso
          rcases this v v (by rw [cGet_eq, read_eq_some]; exact hc) with h | ⟨key', h1, h2⟩
          · rw [cGet_eq, read_eq_some, hs] at h; cases h
          · rw [cGet_eq, read_eq_some, getFullKey_root] at h2
            exact hop ⟨o, rfl, _, find_some_mem h2, h1⟩

/-! ## C39 -/

theorem split_last {a b l1 l2 : List Char} (ha : '/' ∉ a) (hb : '/' ∉ b) (h : l1 ++ '/' :: a = l2 ++ '/' :: b) : l1 = l2 ∧ a = b := by
  rcases List.append_eq_append_iff.mp h with ⟨c, h1, h2⟩ | ⟨c, h1, h2⟩
  · cases c with
    | nil => simp at h1 h2; exact ⟨h1.symm, h2⟩
    | cons x c =>
      simp at h2
      exact absurd (h2.2 ▸ by simp) ha
  · cases c with
    | nil => simp at h1 h2; exact ⟨h1, h2.symm⟩
    | cons x c =>
      simp at h2
      exact absurd (h2.2 ▸ by simp) hb

theorem getFullKey_toList (key root : String) (h : root ≠ "") :
    (getFullKey key root).toList = root.toList ++ '/' :: key.toList := by
  simp [getFullKey, h]

/-- **C39** (partial): two properties whose keys have no `/` are stored under the same name only if root and key are both equal.
Missing: the same for keys with `/`, false of the code (`C39_violation_separator`). -/
theorem C39_names_distinct_partial (key key' root root' : String) (h : Plain key) (h' : Plain key')
    (he : getFullKey key root = getFullKey key' root') : root = root' ∧ key = key' := by
  have hl := congrArg String.toList he
  by_cases r : root = "" <;> by_cases r' : root' = ""
  · subst r; subst r'; rw [getFullKey_root, getFullKey_root] at he; exact ⟨rfl, he⟩
  · subst r
    rw [getFullKey_root, getFullKey_toList _ _ r'] at hl
    exact absurd (hl ▸ by simp) h
  · subst r'
    rw [getFullKey_root, getFullKey_toList _ _ r] at hl
    exact absurd (hl ▸ by simp) h'
  · rw [getFullKey_toList _ _ r, getFullKey_toList _ _ r'] at hl
    obtain ⟨h1, h2⟩ := split_last h h' hl
    exact ⟨String.toList_inj.mp h1, String.toList_inj.mp h2⟩

/-- **C39**: setting one property does not change what another one (other type, or other root or key, keys without `/`) gives. -/
theorem C39_no_overwrite (e : CEnv) (k k' : Kind) (key key' root root' : String) (v : k.Val) (d : k'.Val) (h : Plain key)
    (h' : Plain key') (hne : ¬ (k' = k ∧ root' = root ∧ key' = key)) :
    cGet (cSet e k key v root) k' key' d root' = cGet e k' key' d root' := by
  rw [cGet_eq, cGet_eq, find_cSet]
  split
  · next hk =>
    subst hk
    rw [if_neg]
    intro he
    obtain ⟨h1, h2⟩ := C39_names_distinct_partial _ _ _ _ h' h he
    exact hne ⟨rfl, h1, h2⟩
  · rfl

example : Plain "rate" ∧ Plain "size" ∧ getFullKey "rate" "a/b" ≠ getFullKey "size" "a/b" := by decide +kernel

/-- **C39 violation**: with a `/` in a key, two different (root, key) pairs are one property; one of them may even have no root. -/
theorem C39_violation_separator :
    cGet (cSet (cSet .empty .int "c" (1 : Int) "a/b") .int "b/c" (2 : Int) "a") .int "c" (0 : Int) "a/b" = ((2 : Int), true) ∧
    cGet (cSet (cSet .empty .int "b" (1 : Int) "a") .int "a/b" (2 : Int) "") .int "b" (0 : Int) "a" = ((2 : Int), true) := by
  decide +kernel

/-- **C39 violation**: `MemEnv` ignores the root, for every key, value and pair of roots. -/
theorem C39_violation_mem_root (e : MEnv) (k : Kind) (key : String) (v d : k.Val) (root root' : String) :
    mGet (mSet e k key v root) k key d root' = (v, true) := by
  rw [mGet_eq, read_eq_some, find_mSet]; simp

/-! ## C38, by name -/

/-- The environment after a history of writes. -/
def writes (e : CEnv) (ws : List Write) : CEnv := ws.foldl (fun e w => cSet e w.name.kind w.name.key w.v w.name.root) e

theorem lastWrite_append (ws : List Write) (w : Write) (n : Name) :
    lastWrite (ws ++ [w]) n = if h : w.name = n then some (h ▸ w.v) else lastWrite ws n := by
  induction ws with
  | nil => simp [lastWrite]
  | cons x ws ih =>
    simp only [List.cons_append, lastWrite, ih]
    split
    · next hx => split at hx <;> simp_all
    · next hx =>
      split at hx
      · cases hx
      · next hw => simp [hw, hx]

/-- **C38**: what is read is the last value written to that type, root and key, or the default (keys without `/`).
Missing: keys with `/` (C39) and the other environments (C38_violation_*). -/
theorem C38_reads_last_write_partial (ws : List Write) (hp : ∀ w ∈ ws, Plain w.name.key) (n : Name) (hn : Plain n.key) (d : n.kind.Val) :
    cGet (writes .empty ws) n.kind n.key d n.root = readAs (lastWrite ws n) d := by
  rw [cGet_eq]
  congr 1
  induction ws using List.reverseRecOn with
  | nil => rfl
  | append_singleton ws w ih =>
    have ih := ih (fun w h => hp w (by simp [h]))
    rw [lastWrite_append]
    simp only [writes, List.foldl_append, List.foldl_cons, List.foldl_nil] at ih ⊢
    rw [find_cSet]
    by_cases h : w.name = n
    · subst h; simp
    · rw [dif_neg h, ← ih]
      split
      · next hk =>
        rw [if_neg]
        intro he
        obtain ⟨h1, h2⟩ := C39_names_distinct_partial _ _ _ _ hn (hp w (by simp)) he
        apply h
        cases hw : w.name
        cases n
        simp_all
      · rfl

/-- `MemEnv` after a history of writes. -/
def mwrites (e : MEnv) (ws : List Write) : MEnv := ws.foldl (fun e w => mSet e w.name.kind w.name.key w.v w.name.root) e

/-- **C38** for `MemEnv`, any keys, as long as everybody uses the same root.
Missing: several roots (C39). -/
theorem C38_mem_reads_last_write_partial (ws : List Write) (root : String) (hr : ∀ w ∈ ws, w.name.root = root) (n : Name) (hn : n.root = root)
    (d : n.kind.Val) : mGet (mwrites .empty ws) n.kind n.key d n.root = readAs (lastWrite ws n) d := by
  rw [mGet_eq]
  congr 1
  induction ws using List.reverseRecOn with
  | nil => rfl
  | append_singleton ws w ih =>
    have ih := ih (fun w h => hr w (by simp [h]))
    have hw := hr w (by simp)
    rw [lastWrite_append]
    simp only [mwrites, List.foldl_append, List.foldl_cons, List.foldl_nil] at ih ⊢
    obtain ⟨⟨wk, wr, wkey⟩, wv⟩ := w
    obtain ⟨nk, nr, nkey⟩ := n
    simp only at hw hn ih ⊢
    obtain rfl : wr = nr := hw.trans hn.symm
    by_cases hk : nk = wk
    · subst hk
      rw [find_mSet]
      by_cases h2 : nkey = wkey
      · subst h2; simp
      · have : ¬ ((⟨nk, wr, wkey⟩ : Name) = ⟨nk, wr, nkey⟩) := by simp; exact fun x => h2 x.symm
        rw [dif_neg this, if_neg h2, ih]
    · have : ¬ ((⟨wk, wr, wkey⟩ : Name) = ⟨nk, wr, nkey⟩) := by simp; exact fun x => absurd x.symm hk
      rw [dif_neg this, ← ih]
      simp only [mSet, mset_m_other _ hk]

/-- Non-trivial instance: three writes, two to the same name. -/
example : lastWrite [⟨⟨.int, "n", "a"⟩, (1 : Int)⟩, ⟨⟨.int, "", "a"⟩, (2 : Int)⟩, ⟨⟨.int, "n", "a"⟩, (3 : Int)⟩] ⟨.int, "n", "a"⟩
    = some (3 : Int) := by decide +kernel

/-- **C38 violation** (`DynamicConfigurationProperties`): setting an existing property again, with the same type, is refused and the old
value stays, for every map, key and pair of values. -/
theorem C38_violation_dynamic (m : List (String × Dyn)) (k : Kind) (key : String) (v w : k.Val) (h : dGet m k key = some v) :
    (dSet m k key w).2 = false ∧ dGet (dSet m k key w).1 k key = some v := by
  simp only [dGet] at h
  cases hf : find m key with
  | none => rw [hf] at h; cases h
  | some d =>
    rw [hf] at h
    simp only at h
    split at h
    · next hk =>
      simp only [dSet, hf, if_pos hk, insert, dGet, dif_pos hk]
      exact ⟨trivial, h⟩
    · cases h

example : dGet (dSet [] .int "a" (1 : Int)).1 .int "a" = some (1 : Int) := by decide +kernel

/-- **C38** for `DynamicConfigurationProperties`, the part that holds: the first write of a property is accepted and read back with its type, and not with another;
other properties are not touched.  Missing: later writes, where it fails (`C38_violation_dynamic`). -/
theorem C38_dynamic_first_write_partial (m : List (String × Dyn)) (k : Kind) (key : String) (v : k.Val) (h : find m key = none) :
    (dSet m k key v).2 = true ∧ dGet (dSet m k key v).1 k key = some v ∧ (∀ j, j ≠ k → dGet (dSet m k key v).1 j key = none) ∧
    (∀ j other, other ≠ key → dGet (dSet m k key v).1 j other = dGet m j other) := by
  have e : dSet m k key v = (m ++ [(key, ⟨k, v⟩)], true) := by simp only [dSet, h, insert]
  have hf : find (m ++ [(key, (⟨k, v⟩ : Dyn))]) key = some ⟨k, v⟩ := by
    rw [find_append, h]; simp
  rw [e]
  refine ⟨rfl, ?_, fun j hj => ?_, fun j other ho => ?_⟩
  · simp [dGet, hf]
  · simp only [dGet, hf]; rw [dif_neg (fun x => hj x.symm)]
  · have : find (m ++ [(key, (⟨k, v⟩ : Dyn))]) other = find m other := by
      rw [find_append]; cases find m other <;> simp [Ne.symm ho]
    simp only [dGet, this]

/-- **C38**: a property that holds a value of another type refuses the write and keeps its value; every map, every pair of types. -/
theorem C38_dynamic_other_type (m : List (String × Dyn)) (k j : Kind) (key : String) (v : k.Val) (w : j.Val) (hk : j ≠ k) (h : dGet m k key = some v) :
    dSet m j key w = (m, false) := by
  simp only [dGet] at h
  cases hf : find m key with
  | none => rw [hf] at h; cases h
  | some d =>
    rw [hf] at h
    simp only at h
    split at h
    · next e =>
      simp only [dSet, hf]
      rw [if_neg (fun x => hk (x.symm.trans e))]
    · cases h

example : dGet (dSet [] .int "a" (1 : Int)).1 .string "a" = none ∧ (dSet (dSet [] .int "a" (1 : Int)).1 .string "a" "x").2 = false := by decide +kernel

/-! ## C41 -/

/-- `q` is a connected peer with configuration key `K`. -/
def InG (K : String) (n : Net) (q : Nat) : Prop := q < n.count ∧ (n.peer q).key = K

instance (K : String) (n : Net) (q : Nat) : Decidable (InG K n q) := inferInstanceAs (Decidable (_ ∧ _))

/-- The writes of the peers with configuration key `K`, applied in order to one environment. -/
def global (K : String) (n : Net) (g : CEnv) : ZOp → CEnv
  | .set p k key v root => if InG K n p then cSet g k key v root else g
  | .load p f root => if InG K n p then (cLoad g f root).1 else g
  | .poll _ _ => g

/-- If `p` is in the group, no message of another peer of the group is on the way to a peer of the group. -/
def Quiet (K : String) (n : Net) (p : Nat) : Prop := InG K n p → ∀ s, s ≠ p → InG K n s → ∀ q, InG K n q → n.chan s q = []

/-- Every write happens when no message of another writer of the group is on the way, and every loaded file has only new properties. -/
def Disciplined (K : String) : Net → List ZOp → Prop
  | _, [] => True
  | n, op :: ops =>
    (match op with
      | .set p _ _ _ _ => Quiet K n p
      | .load p f root => Quiet K n p ∧ (InG K n p → (cLoad (n.peer p).env f root).2 = true)
      | .poll _ _ => True) ∧ Disciplined K (zStep n op) ops

/-- Where the group is: `c` is the last writer, `G` the environment it published last. -/
structure Conv (K : String) (n : Net) (G : CEnv) (c : Nat) : Prop where
  inK : InG K n c
  others : ∀ s, s ≠ c → InG K n s → ∀ q, InG K n q → n.chan s q = []
  msgs : ∀ s q, ∀ m ∈ n.chan s q, s < n.count ∧ m.key = (n.peer s).key ∧ m.src = (n.peer s).src
  writer : (n.peer c).env = G
  reader : ∀ q, q ≠ c → InG K n q → ((n.chan c q).getLast?.map (·.data)).getD (n.peer q).env = G

/-- The same network, one peer with another environment. -/
def setEnv (n : Net) (p : Nat) (e : CEnv) : Net := { n with peer := upd n.peer p { n.peer p with env := e } }

theorem setEnv_static (n : Net) (p : Nat) (e : CEnv) (q : Nat) :
    ((setEnv n p e).peer q).key = (n.peer q).key ∧ ((setEnv n p e).peer q).src = (n.peer q).src := by
  by_cases h : q = p
  · subst h; simp [setEnv]
  · simp [setEnv, upd_other _ _ h]

theorem zSet_eq (n : Net) (p : Nat) (k : Kind) (key : String) (v : k.Val) (root : String) :
    zSet n p k key v root = zPublish (setEnv n p (cSet (n.peer p).env k key v root)) p (cSet (n.peer p).env k key v root) := rfl

theorem zLoad_eq (n : Net) (p : Nat) (f : Option CEnv) (root : String) :
    zLoad n p f root = if (cLoad (n.peer p).env f root).2 then
      zPublish (setEnv n p (cLoad (n.peer p).env f root).1) p (cLoad (n.peer p).env f root).1
      else setEnv n p (cLoad (n.peer p).env f root).1 := rfl

theorem zStep_static (n : Net) (op : ZOp) (q : Nat) : (zStep n op).count = n.count ∧
    ((zStep n op).peer q).key = (n.peer q).key ∧ ((zStep n op).peer q).src = (n.peer q).src := by
  cases op with
  | set p k key v root => exact ⟨rfl, setEnv_static n p _ q⟩
  | load p f root =>
    simp only [zStep, zLoad_eq]
    split
    · exact ⟨rfl, setEnv_static n p _ q⟩
    · exact ⟨rfl, setEnv_static n p _ q⟩
  | poll p s =>
    simp only [zStep, zPoll]
    split
    · simp
    · refine ⟨rfl, ?_⟩
      simp only []
      split
      · by_cases h : q = p
        · subst h; simp
        · simp [upd_other _ _ h]
      · simp

theorem inG_step (K : String) (n : Net) (op : ZOp) (q : Nat) : InG K (zStep n op) q ↔ InG K n q := by
  simp only [InG, (zStep_static n op q).1, (zStep_static n op q).2.1]

/-- Two peers of the group never have the same source id. -/
def Distinct (K : String) (n : Net) : Prop :=
  ∀ p q, InG K n p → InG K n q → (n.peer p).src = (n.peer q).src → p = q

theorem distinct_step {K : String} {n : Net} (h : Distinct K n) (op : ZOp) : Distinct K (zStep n op) := by
  intro p q hp hq he
  rw [inG_step] at hp hq
  rw [(zStep_static n op p).2.2, (zStep_static n op q).2.2] at he
  exact h p q hp hq he

theorem conv_setEnv {K : String} {n : Net} {G : CEnv} {c : Nat} (h : Conv K n G c) (p : Nat) (e : CEnv) (hK : ¬ InG K n p) :
    Conv K (setEnv n p e) G c := by
  have hg : ∀ q, InG K (setEnv n p e) q ↔ InG K n q := fun q => by simp only [InG, (setEnv_static n p e q).1]; exact Iff.rfl
  have hne : ∀ q, InG K n q → q ≠ p := fun q hq x => hK (x ▸ hq)
  refine ⟨(hg c).mpr h.inK, fun s hs hk q hq => h.others s hs ((hg s).mp hk) q ((hg q).mp hq), ?_, ?_, ?_⟩
  · intro s q m hm
    rw [(setEnv_static n p e s).1, (setEnv_static n p e s).2]
    exact h.msgs s q m hm
  · show (upd n.peer p _ c).env = G
    rw [upd_other _ _ (hne c h.inK)]; exact h.writer
  · intro q hqc hq
    show ((n.chan c q).getLast?.map (·.data)).getD (upd n.peer p _ q).env = G
    rw [upd_other _ _ (hne q ((hg q).mp hq))]
    exact h.reader q hqc ((hg q).mp hq)

/-- A write of the group, or of another group. -/
theorem conv_write {K : String} {n : Net} {G : CEnv} {c : Nat} (h : Conv K n G c) (p : Nat) (e : CEnv) (hpc : p < n.count)
    (hq : Quiet K n p) : ∃ c', Conv K (zPublish (setEnv n p e) p e) (if InG K n p then e else G) c' := by
  have hst := setEnv_static n p e
  have hg : ∀ q, InG K (zPublish (setEnv n p e) p e) q ↔ InG K n q := fun q => by
    simp only [InG, zPublish, (hst q).1]; exact Iff.rfl
  have hmsgs : ∀ s q, ∀ m ∈ (zPublish (setEnv n p e) p e).chan s q,
      s < n.count ∧ m.key = ((setEnv n p e).peer s).key ∧ m.src = ((setEnv n p e).peer s).src := by
    intro s q m hm
    simp only [zPublish] at hm
    split at hm
    · next hs =>
      obtain ⟨rfl, -⟩ := hs
      rcases List.mem_append.mp hm with hm | hm
      · rw [(hst s).1, (hst s).2]; exact h.msgs s q m hm
      · simp at hm; subst hm; exact ⟨hpc, rfl, rfl⟩
    · rw [(hst s).1, (hst s).2]; exact h.msgs s q m hm
  by_cases hK : InG K n p
  · rw [if_pos hK]
    refine ⟨p, (hg p).mpr hK, ?_, hmsgs, ?_, ?_⟩
    · intro s hs hk q hkq
      simp only [zPublish, if_neg (fun x => hs x.1 : ¬ (s = p ∧ q < (setEnv n p e).count))]
      exact hq hK s hs ((hg s).mp hk) q ((hg q).mp hkq)
    · simp [zPublish, setEnv]
    · intro q _ hkq
      have : q < (setEnv n p e).count := ((hg q).mp hkq).1
      simp [zPublish, this]
  · have hcp : c ≠ p := fun x => hK (x ▸ h.inK)
    rw [if_neg hK]
    have h1 := conv_setEnv h p e hK
    refine ⟨c, (hg c).mpr h.inK, ?_, hmsgs, h1.writer, ?_⟩
    · intro s hs hk q hkq
      have hsp : s ≠ p := fun x => hK (x ▸ (hg s).mp hk)
      simp only [zPublish, if_neg (fun x => hsp x.1 : ¬ (s = p ∧ q < (setEnv n p e).count))]
      exact h.others s hs ((hg s).mp hk) q ((hg q).mp hkq)
    · intro q hqc hkq
      have := h1.reader q hqc hkq
      simp only [zPublish, if_neg (fun x => hcp x.1 : ¬ (c = p ∧ q < (setEnv n p e).count))]
      exact this

theorem conv_poll {K : String} {n : Net} {G : CEnv} {c : Nat} (hd : Distinct K n) (h : Conv K n G c) (p s : Nat) :
    Conv K (zPoll n p s) G c := by
  have hst := zStep_static n (.poll p s)
  have hg := inG_step K n (.poll p s)
  simp only [zStep] at hst hg
  have hchan : ∀ s' q, n.chan s' q = (zPoll n p s).chan s' q ∨ ∃ m, n.chan s' q = m :: (zPoll n p s).chan s' q := by
    intro s' q
    simp only [zPoll]
    split
    · exact .inl rfl
    · next m rest hm =>
      simp only []
      split
      · next hx => obtain ⟨rfl, rfl⟩ := hx; exact .inr ⟨m, hm⟩
      · exact .inl rfl
  refine ⟨(hg c).mpr h.inK, ?_, ?_, ?_, ?_⟩
  · intro s' hs hk q hq
    have h0 := h.others s' hs ((hg s').mp hk) q ((hg q).mp hq)
    rcases hchan s' q with e | ⟨m, e⟩
    · rw [← e]; exact h0
    · rw [h0] at e; cases e
  · intro s' q m hm
    rw [(hst s').2.1, (hst s').2.2, (hst s').1]
    apply h.msgs s' q m
    rcases hchan s' q with e | ⟨m', e⟩
    · rw [e]; exact hm
    · rw [e]; exact List.mem_cons_of_mem _ hm
  · rw [← h.writer]
    simp only [zPoll]
    split
    · rfl
    · next m rest hm =>
      simp only []
      split
      · next hx =>
        by_cases hpc : c = p
        · exfalso
          subst hpc
          obtain ⟨m0, m1, m2⟩ := h.msgs s c m (by rw [hm]; simp)
          have hsK : InG K n s := ⟨m0, by rw [← m1, hx.1]; exact h.inK.2⟩
          by_cases hsc : s = c
          · subst hsc; exact hx.2 m2
          · have := h.others s hsc hsK c h.inK
            rw [hm] at this; cases this
        · rw [upd_other _ _ hpc]
      · rfl
  · intro q hqc hk
    rw [hg] at hk
    have hr := h.reader q hqc hk
    simp only [zPoll]
    split
    · exact hr
    · next m rest hm =>
      simp only []
      obtain ⟨m0, m1, m2⟩ := h.msgs s p m (by rw [hm]; simp)
      by_cases hx : c = s ∧ q = p
      · obtain ⟨rfl, rfl⟩ := hx
        rw [if_pos ⟨rfl, rfl⟩, if_pos]
        · rw [hm] at hr
          cases rest with
          | nil => simpa using hr
          | cons a rest =>
            rw [List.getLast?_cons_cons] at hr
            cases hl : (a :: rest).getLast? with
            | none => simp at hl
            | some w => rw [hl] at hr; simpa using hr
        · refine ⟨by rw [m1, hk.2]; exact h.inK.2, ?_⟩
          intro e
          rw [m2] at e
          exact hqc (hd _ _ hk h.inK e.symm)
      · rw [if_neg hx]
        by_cases hqp : q = p
        · subst hqp
          rw [if_neg]
          · exact hr
          · rintro ⟨e1, -⟩
            have hsK : InG K n s := ⟨m0, by rw [← m1, e1]; exact hk.2⟩
            have hsc : s ≠ c := fun x => hx ⟨x.symm, rfl⟩
            have := h.others s hsc hsK q hk
            rw [hm] at this; cases this
        · have : (if m.key = (n.peer p).key ∧ m.src ≠ (n.peer p).src then upd n.peer p { n.peer p with env := m.data } else n.peer) q
              = n.peer q := by
            split
            · exact upd_other _ _ hqp
            · rfl
          rw [this]; exact hr

theorem conv_self {K : String} {n : Net} {G : CEnv} {c : Nat} (h : Conv K n G c) (p : Nat) (hK : InG K n p)
    (hq : ∀ s, s ≠ p → InG K n s → n.chan s p = []) : (n.peer p).env = G := by
  by_cases hpc : p = c
  · subst hpc; exact h.writer
  · have := h.reader p hpc hK
    rw [hq c (fun x => hpc x.symm) h.inK] at this
    exact this

/-- The operations are calls of connected peers. -/
def Connected (N : Nat) (ops : List ZOp) : Prop :=
  ∀ op ∈ ops, match op with | .set p _ _ _ _ => p < N | .load p _ _ => p < N | .poll _ _ => True

theorem conv_run {K : String} (ops : List ZOp) : ∀ (n : Net) (G : CEnv) (c : Nat), Distinct K n → Conv K n G c → Connected n.count ops →
    Disciplined K n ops → ∃ c', Conv K (zRun n ops) (ops.foldl (global K n) G) c' := by
  induction ops with
  | nil => intro n G c _ h _ _; exact ⟨c, h⟩
  | cons op ops ih =>
    intro n G c hd h hco hdi
    simp only [zRun, List.foldl_cons]
    have hg : ∀ g, ops.foldl (global K n) g = ops.foldl (global K (zStep n op)) g := by
      intro g
      congr 1
      funext g o
      cases o <;> simp only [global, inG_step]
    rw [hg]
    have hcop := hco op (by simp)
    have key : ∃ c', Conv K (zStep n op) (global K n G op) c' := by
      cases op with
      | set p k key v root =>
        have hq : Quiet K n p := hdi.1
        have := conv_write h p (cSet (n.peer p).env k key v root) hcop hq
        simp only [zStep, zSet_eq, global]
        by_cases hK : InG K n p
        · rw [if_pos hK] at this ⊢
          rw [conv_self h p hK (fun s h1 h2 => hq hK s h1 h2 p hK)] at this ⊢
          exact this
        · rw [if_neg hK] at this ⊢
          exact this
      | load p f root =>
        have hq : Quiet K n p := hdi.1.1
        have hl := hdi.1.2
        have := conv_write h p (cLoad (n.peer p).env f root).1 hcop hq
        simp only [zStep, zLoad_eq, global]
        by_cases hK : InG K n p
        · rw [if_pos hK] at this ⊢
          rw [if_pos (hl hK)]
          rw [conv_self h p hK (fun s h1 h2 => hq hK s h1 h2 p hK)] at this ⊢
          exact this
        · rw [if_neg hK] at this ⊢
          split
          · exact this
          · exact ⟨c, conv_setEnv h p _ hK⟩
      | poll p s => exact ⟨c, conv_poll hd h p s⟩
    obtain ⟨c', hc'⟩ := key
    exact ih _ _ c' (distinct_step hd op) hc' (by
      rw [(zStep_static n op 0).1]; exact fun o ho => hco o (by simp [ho])) hdi.2

/-- **C41** (partial): any number of peers, any number of groups, any order of delivery.  If the peers of a group start with the same
environment, have different source ids, and write only when no message of another writer of their group is on the way (a file only
if it has no duplicates), then a peer to which everything has been delivered holds the environment obtained from all their writes in
order.  Missing: concurrent writes, equal source ids and files with duplicates, for which the code does not converge
(`C41_violation_*`). -/
theorem C41_converges_partial (K : String) (n : Net) (G : CEnv) (hs : ∀ q, InG K n q → (n.peer q).env = G)
    (hc : ∀ s q, n.chan s q = []) (hd : Distinct K n) (ops : List ZOp) (hco : Connected n.count ops) (hdi : Disciplined K n ops)
    (q : Nat) (hq : InG K n q) (hdel : ∀ s, InG K n s → (zRun n ops).chan s q = []) :
    ((zRun n ops).peer q).env = ops.foldl (global K n) G := by
  have hst : ∀ (ops : List ZOp) (n : Net) (q : Nat), InG K (zRun n ops) q ↔ InG K n q := by
    intro ops
    induction ops with
    | nil => intro n q; exact Iff.rfl
    | cons op ops ih => intro n q; exact (ih (zStep n op) q).trans (inG_step K n op q)
  have h0 : Conv K n G q := ⟨hq, fun s _ _ r _ => hc s r, fun s r m hm => (by rw [hc] at hm; cases hm), hs q hq,
    fun r _ hr => (by rw [hc]; exact hs r hr)⟩
  obtain ⟨c', h⟩ := conv_run ops n G q hd h0 hco hdi
  exact conv_self h q ((hst ops n q).mpr hq) (fun s _ hs' => hdel s ((hst ops n s).mp hs'))

/-- **C41**: receiving never sends: after a poll no channel has more messages than before. -/
theorem C41_no_echo (n : Net) (p s s' q : Nat) : (zPoll n p s).chan s' q <:+ n.chan s' q := by
  simp only [zPoll]
  split
  · exact List.suffix_refl _
  · next m rest hm =>
    simp only []
    split
    · next hx => obtain ⟨rfl, rfl⟩ := hx; rw [hm]; exact List.suffix_cons _ _
    · exact List.suffix_refl _

/-- **C41**: a message of another group, or with one's own source id, changes no environment. -/
theorem C41_ignores_foreign (n : Net) (p s : Nat) (m : Msg) (rest : List Msg) (hm : n.chan s p = m :: rest)
    (h : m.key ≠ (n.peer p).key ∨ m.src = (n.peer p).src) : (zPoll n p s).peer = n.peer := by
  simp only [zPoll, hm]
  rw [if_neg]
  rintro ⟨h1, h2⟩
  rcases h with h | h
  · exact h h1
  · exact h2 h

/-- **C41**: and any other message is adopted entirely. -/
theorem C41_adopts (n : Net) (p s : Nat) (m : Msg) (rest : List Msg) (hm : n.chan s p = m :: rest)
    (h1 : m.key = (n.peer p).key) (h2 : m.src ≠ (n.peer p).src) : ((zPoll n p s).peer p).env = m.data ∧
      ∀ q, q ≠ p → (zPoll n p s).peer q = n.peer q := by
  simp only [zPoll, hm, if_pos (And.intro h1 h2)]
  exact ⟨by simp, fun q hq => upd_other _ _ hq⟩

/-- Two groups: peers with an even number have key "a", the others "b". -/
def demo : Net := ⟨3, fun p => ⟨if p % 2 = 0 then "a" else "b", p, .empty⟩, fun _ _ => []⟩

/-- Peers 0 and 2 write one after the other, peer 1 of the other group in between; everything that matters is delivered. -/
def demoOps : List ZOp :=
  [.set 0 .int "x" (1 : Int) "", .set 1 .int "x" (9 : Int) "", .poll 2 0, .poll 0 0, .poll 1 0, .set 0 .int "y" (2 : Int) "", .poll 2 1,
   .poll 2 0, .poll 0 0, .poll 1 0, .set 2 .int "x" (3 : Int) "", .poll 0 2]

/-- It meets the hypotheses of `C41_converges_partial`. -/
example : Distinct "a" demo ∧ Connected demo.count demoOps ∧ Disciplined "a" demo demoOps ∧ InG "a" demo 2 ∧
    (∀ s, InG "a" demo s → (zRun demo demoOps).chan s 0 = []) := by
  have hk : ∀ op, ∀ n, (∀ q, InG "a" n q ↔ q = 0 ∨ q = 2) → ∀ q, InG "a" (zStep n op) q ↔ q = 0 ∨ q = 2 :=
    fun op n h q => (inG_step "a" n op q).trans (h q)
  have h0 : ∀ q, InG "a" demo q ↔ q = 0 ∨ q = 2 := by
    intro q
    simp only [InG, demo]
    constructor
    · rintro ⟨h1, h2⟩
      have : q = 0 ∨ q = 1 ∨ q = 2 := by omega
      rcases this with rfl | rfl | rfl
      · simp
      · simp at h2
      · simp
    · rintro (rfl | rfl) <;> decide
  have quiet : ∀ n p, (∀ q, InG "a" n q ↔ q = 0 ∨ q = 2) → (p = 0 → n.chan 2 0 = [] ∧ n.chan 2 2 = []) →
      (p = 2 → n.chan 0 0 = [] ∧ n.chan 0 2 = []) → Quiet "a" n p := by
    intro n p hn h1 h2 hp s hs hks q hq
    rw [hn] at hp hks hq
    rcases hp with rfl | rfl <;> rcases hks with rfl | rfl <;> rcases hq with rfl | rfl <;> simp_all
  refine ⟨?_, ?_, ?_, (h0 2).mpr (by simp), ?_⟩
  · intro p q _ _ h; exact h
  · intro op hop
    simp only [demoOps, List.mem_cons, List.not_mem_nil, or_false] at hop
    rcases hop with rfl | rfl | rfl | rfl | rfl | rfl | rfl | rfl | rfl | rfl | rfl | rfl <;> simp [demo]
  · refine ⟨quiet _ _ h0 (fun _ => ⟨rfl, rfl⟩) (by simp), quiet _ _ (hk _ _ h0) (by simp) (by simp), trivial, trivial, trivial,
      quiet _ _ (hk _ _ (hk _ _ (hk _ _ (hk _ _ (hk _ _ h0))))) (fun _ => ⟨rfl, rfl⟩) (by simp), trivial, trivial, trivial, trivial,
      quiet _ _ (hk _ _ (hk _ _ (hk _ _ (hk _ _ (hk _ _ (hk _ _ (hk _ _ (hk _ _ (hk _ _ (hk _ _ h0)))))))))) (by simp)
        (fun _ => ⟨rfl, rfl⟩), trivial, trivial⟩
  · intro s hs
    rcases (h0 s).mp hs with rfl | rfl <;> rfl

/-- Non-trivial instance: after the writes of both peers everybody in the group reads 3 and 2. -/
example : cGet ((zRun demo demoOps).peer 0).env .int "x" (0 : Int) "" = ((3 : Int), true) ∧
    cGet ((zRun demo demoOps).peer 0).env .int "y" (0 : Int) "" = ((2 : Int), true) ∧
    cGet ((zRun demo demoOps).peer 2).env .int "x" (0 : Int) "" = ((3 : Int), true) ∧
    cGet ((zRun demo demoOps).peer 1).env .int "x" (0 : Int) "" = ((9 : Int), true) := by decide +kernel

/-- **C41 violation**: two concurrent writes of different properties: the peers exchange their environments, each loses its own write, and
they stay different. -/
theorem C41_violation_concurrent :
    let n := zRun demo [.set 0 .int "x" (1 : Int) "", .set 2 .int "y" (2 : Int) "", .poll 0 2, .poll 2 0, .poll 0 0, .poll 2 2]
    n.chan 0 0 = [] ∧ n.chan 0 2 = [] ∧ n.chan 2 0 = [] ∧ n.chan 2 2 = [] ∧
      cGet (n.peer 0).env .int "x" (0 : Int) "" = ((0 : Int), false) ∧ cGet (n.peer 0).env .int "y" (0 : Int) "" = ((2 : Int), true) ∧
      cGet (n.peer 2).env .int "x" (0 : Int) "" = ((1 : Int), true) ∧ cGet (n.peer 2).env .int "y" (0 : Int) "" = ((0 : Int), false) := by
  refine ⟨rfl, rfl, rfl, rfl, ?_, ?_, ?_, ?_⟩ <;> decide +kernel

/-- Two peers created in the same millisecond. -/
def twins : Net := ⟨2, fun _ => ⟨"a", 5, .empty⟩, fun _ _ => []⟩

/-- **C41 violation**: peers with the same source id ignore each other. -/
theorem C41_violation_same_millisecond :
    let n := zRun twins [.set 0 .int "x" (1 : Int) "", .poll 1 0]
    n.chan 0 1 = [] ∧ cGet (n.peer 0).env .int "x" (0 : Int) "" = ((1 : Int), true) ∧
      cGet (n.peer 1).env .int "x" (0 : Int) "" = ((0 : Int), false) := by
  refine ⟨rfl, ?_, ?_⟩ <;> decide +kernel

/-- **C41 violation**: loading a file with one duplicate changes the loading peer and is not published. -/
theorem C41_violation_load :
    let n := zRun demo [.set 0 .string "s" "old" "", .poll 2 0, .load 0 (some (cSet (cSet .empty .string "s" "n" "") .string "t" "new" "")) ""]
    n.chan 0 2 = [] ∧ cGet (n.peer 0).env .string "t" "" "" = ("new", true) ∧ cGet (n.peer 2).env .string "t" "" "" = ("", false) := by
  refine ⟨rfl, ?_, ?_⟩ <;> decide +kernel

end Verif.Env
