import Verif.Model.RaMulti
import Verif.Lemmas.Memory
import Verif.Lemmas.Sequencer

/-! The invariant of the multi producer ring on release/acquire memory. -/

namespace Verif.RA

variable {V : Type}

/-- `v` counts all accesses that `u` counts. -/
structure View.Le (u v : View) : Prop where
  w : ∀ x, u.w x ≤ v.w x
  r : ∀ x t, u.r x t ≤ v.r x t

theorem View.Le.refl (u : View) : u.Le u := ⟨fun _ => Nat.le_refl _, fun _ _ => Nat.le_refl _⟩
theorem View.Le.trans {u v w : View} (h1 : u.Le v) (h2 : v.Le w) : u.Le w :=
  ⟨fun x => Nat.le_trans (h1.w x) (h2.w x), fun x t => Nat.le_trans (h1.r x t) (h2.r x t)⟩
theorem View.le_join_left (u v : View) : u.Le (u.join v) := ⟨fun _ => Nat.le_max_left _ _, fun _ _ => Nat.le_max_left _ _⟩
theorem View.le_join_right (u v : View) : v.Le (u.join v) := ⟨fun _ => Nat.le_max_right _ _, fun _ _ => Nat.le_max_right _ _⟩
theorem View.le_see (u : View) (l i : Nat) : u.Le (u.see l i) := ⟨fun _ => Nat.le_refl _, fun _ _ => Nat.le_refl _⟩
theorem View.see_le (u : View) (l i : Nat) : (u.see l i).Le u := ⟨fun _ => Nat.le_refl _, fun _ _ => Nat.le_refl _⟩

/-- A view counts only accesses that were made. -/
def Mem.Bound (m : Mem V) (u : View) : Prop := (∀ x, u.w x ≤ (m.writes x).length) ∧ ∀ x t, u.r x t ≤ m.reads x t

structure Mem.Good (m : Mem V) : Prop where
  view : ∀ t, m.Bound (m.view t)
  msg : ∀ l, ∀ g ∈ m.msgs l, m.Bound g.view
  start : m.Bound .start

theorem Mem.Bound.join {m : Mem V} {u v : View} (h1 : m.Bound u) (h2 : m.Bound v) : m.Bound (u.join v) :=
  ⟨fun x => Nat.max_le.mpr ⟨h1.1 x, h2.1 x⟩, fun x t => Nat.max_le.mpr ⟨h1.2 x t, h2.2 x t⟩⟩

theorem Mem.good_init (a : Int) (v : V) : (Mem.init a v).Good := by
  refine ⟨fun t => ⟨fun x => Nat.le_refl _, fun x t => Nat.le_refl _⟩, ?_, ⟨fun x => Nat.le_refl _, fun x t => Nat.le_refl _⟩⟩
  intro l g hg
  simp only [Mem.init, List.mem_singleton] at hg
  subst hg
  exact ⟨fun x => Nat.le_refl _, fun x t => Nat.le_refl _⟩

/-- What changes from `m` to `m'` in a step of thread `t`: views grow; accesses are counted. -/
structure Mem.Step (m m' : Mem V) (t : Nat) : Prop where
  good : m'.Good
  grow : ∀ u, (m.view u).Le (m'.view u)
  other : ∀ u, u ≠ t → m'.view u = m.view u

/-- Nothing but the view of `t` changes. -/
theorem Mem.step_view {m : Mem V} (hg : m.Good) (t : Nat) (u : View) (hle : (m.view t).Le u) (hb : m.Bound u) :
    Mem.Step m { m with view := upd m.view t u } t where
  good := by
    refine ⟨?_, hg.msg, hg.start⟩
    intro t'
    simp only [upd_apply]
    split
    · exact hb
    · exact hg.view t'
  grow t' := by
    simp only [upd_apply]
    split
    · next e => subst e; exact hle
    · exact View.Le.refl _
  other t' h := upd_other _ _ h

theorem Mem.load_step {m m' : Mem V} (hg : m.Good) {t l i : Nat} {q : Int} (h : m.load t l i = some (q, m')) :
    Mem.Step m m' t ∧ m'.msgs = m.msgs ∧ m'.writes = m.writes ∧ m'.reads = m.reads ∧
      ∃ g ∈ m.msgs l, g.val = q ∧ g.view.Le (m'.view t) := by
  obtain ⟨g, hget, rfl, hle, rfl⟩ := Mem.load_some h
  have hm := List.mem_of_getElem? hget
  refine ⟨Mem.step_view hg t _ ((View.le_join_left _ _).trans (View.le_see _ _ _)) (Mem.Bound.join (hg.view t) (hg.msg l g hm)), rfl, rfl, rfl,
    g, hm, rfl, ?_⟩
  simp only [upd_same]
  exact (View.le_join_right _ _).trans (View.le_see _ _ _)

theorem Mem.loadRlx_step {m m' : Mem V} (hg : m.Good) {t l i : Nat} {q : Int} (h : m.loadRlx t l i = some (q, m')) :
    Mem.Step m m' t ∧ m'.msgs = m.msgs ∧ m'.writes = m.writes ∧ m'.reads = m.reads ∧ ∃ g ∈ m.msgs l, g.val = q := by
  unfold Mem.loadRlx at h
  split at h
  · split at h
    · next g hget =>
      cases h
      exact ⟨Mem.step_view hg t _ (View.le_see _ _ _) (hg.view t), rfl, rfl, rfl, g, List.mem_of_getElem? hget, rfl⟩
    · cases h
  · cases h

/-- A store of thread `t` whose message carries a view that counts no more than `t` knows. -/
theorem Mem.append_step {m : Mem V} (hg : m.Good) (t l : Nat) (v : Int) (u w : View) (hle : (m.view t).Le u) (hb : m.Bound u) (hw : m.Bound w) :
    Mem.Step m { m with msgs := upd m.msgs l (m.msgs l ++ [⟨v, w⟩]), view := upd m.view t u } t where
  good := by
    refine ⟨?_, ?_, hg.start⟩
    · intro t'
      simp only [upd_apply]
      split
      · exact hb
      · exact hg.view t'
    · intro l' g hm
      simp only [upd_apply] at hm
      split at hm
      · rw [List.mem_append, List.mem_singleton] at hm
        rcases hm with hm | rfl
        · next e => subst e; exact hg.msg l' g hm
        · exact hw
      · exact hg.msg l' g hm
  grow t' := by
    simp only [upd_apply]
    split
    · next e => subst e; exact hle
    · exact View.Le.refl _
  other t' h := upd_other _ _ h

theorem Mem.store_step {m : Mem V} (hg : m.Good) (t l : Nat) (v : Int) : Mem.Step m (m.store t l v) t :=
  Mem.append_step hg t l v _ _ (View.le_see _ _ _) (hg.view t) (hg.view t)

theorem Mem.storeRlx_step {m : Mem V} (hg : m.Good) (t l : Nat) (v : Int) : Mem.Step m (m.storeRlx t l v) t :=
  Mem.append_step hg t l v _ _ (View.le_see _ _ _) (hg.view t) hg.start

theorem Mem.rmw_step {m m' : Mem V} (hg : m.Good) {t l : Nat} {f : Int → Int} {q : Int} (h : m.rmw t l f = some (q, m')) :
    Mem.Step m m' t ∧ m'.writes = m.writes ∧ m'.reads = m.reads ∧ (∃ g ∈ m.msgs l, g.val = q) ∧
      (∃ w, m'.msgs = upd m.msgs l (m.msgs l ++ [⟨f q, w⟩])) := by
  unfold Mem.rmw at h
  split at h
  · next g hl =>
    cases h
    have hm : g ∈ m.msgs l := List.mem_of_getLast? hl
    exact ⟨Mem.append_step hg t l _ _ _ ((View.le_join_left _ _).trans (View.le_see _ _ _)) (Mem.Bound.join (hg.view t) (hg.msg l g hm))
      (Mem.Bound.join (hg.view t) (hg.msg l g hm)), rfl, rfl, ⟨g, hm, rfl⟩, _, rfl⟩
  · cases h

theorem Mem.write_step {m : Mem V} (hg : m.Good) (t x : Nat) (v : V) : Mem.Step m (m.write t x v) t := by
  have hb : ∀ u, m.Bound u → (m.write t x v).Bound u := by
    intro u hu
    refine ⟨fun y => ?_, hu.2⟩
    simp only [Mem.write, upd_apply]
    split
    · next e => subst e; have := hu.1 y; simp only [List.length_cons]; omega
    · exact hu.1 y
  refine ⟨⟨?_, fun l g hm => hb _ (hg.msg l g hm), hb _ hg.start⟩, ?_, fun u h => upd_other _ _ h⟩
  · intro t'
    by_cases e : t' = t
    · subst e
      simp only [Mem.write, upd_same]
      refine ⟨fun y => ?_, (hg.view t').2⟩
      simp only [upd_apply]
      split
      · simp
      · exact (hg.view t').1 y
    · have := hb _ (hg.view t')
      simp only [Mem.write, upd_other _ _ e] at this ⊢
      exact this
  · intro t'
    by_cases e : t' = t
    · subst e
      simp only [Mem.write, upd_same]
      refine ⟨fun y => ?_, fun y t => Nat.le_refl _⟩
      simp only [upd_apply]
      split
      · next e => subst e; have := (hg.view t').1 y; omega
      · exact Nat.le_refl _
    · simp only [Mem.write, upd_other _ _ e]
      exact View.Le.refl _

theorem Mem.read_step {m m' : Mem V} (hg : m.Good) {t x : Nat} {v : V} (h : m.read t x = some (v, m')) :
    Mem.Step m m' t ∧ m'.msgs = m.msgs ∧ m'.writes = m.writes ∧ (m.writes x).head? = some v ∧
      m'.reads = upd m.reads x (upd (m.reads x) t (m.reads x t + 1)) ∧ (m'.view t).r x t = m.reads x t + 1 := by
  obtain ⟨hv, rfl⟩ := Mem.read_some h
  have hrd : ∀ y t', m.reads y t' ≤ upd m.reads x (upd (m.reads x) t (m.reads x t + 1)) y t' := by
    intro y t'
    by_cases e : y = x
    · subst e
      by_cases e' : t' = t
      · subst e'; simp
      · simp [e']
    · simp [e]
  refine ⟨⟨⟨?_, fun l g hm => ⟨(hg.msg l g hm).1, fun y t' => Nat.le_trans ((hg.msg l g hm).2 y t') (hrd y t')⟩,
    ⟨hg.start.1, fun y t' => Nat.le_trans (hg.start.2 y t') (hrd y t')⟩⟩, ?_, fun u h => upd_other _ _ h⟩, rfl, rfl, hv, rfl, by simp⟩
  · intro t'
    by_cases e : t' = t
    · subst e
      simp only [upd_same]
      refine ⟨(hg.view t').1, fun y u => ?_⟩
      by_cases e1 : y = x
      · subst e1
        by_cases e2 : u = t'
        · subst e2; simp
        · simpa [e2] using (hg.view t').2 y u
      · simpa [e1] using (hg.view t').2 y u
    · simp only [upd_other _ _ e]
      exact ⟨(hg.view t').1, fun y u => Nat.le_trans ((hg.view t').2 y u) (hrd y u)⟩
  · intro t'
    by_cases e : t' = t
    · subst e
      simp only [upd_same]
      refine ⟨fun y => Nat.le_refl _, fun y u => ?_⟩
      by_cases e1 : y = x
      · subst e1
        by_cases e2 : u = t'
        · subst e2
          have := (hg.view u).2 y u
          simp only [upd_same]; omega
        · simp [e2]
      · simp [e1]
    · simp only [upd_other _ _ e]
      exact View.Le.refl _

end Verif.RA

namespace Verif.RaMulti
open Verif Verif.Disr Verif.RA

variable {V : Type}

/-- First sequence that is not finished. -/
def CPc.low : CPc → Int
  | .wait nx | .batch nx _ | .handle nx _ | .scan nx _ _ => nx

/-- First sequence whose slot has not been touched. -/
def CPc.pos : CPc → Int
  | .wait nx | .batch nx _ | .scan nx _ _ => nx
  | .handle nx _ => nx + 1

/-- Last sequence known to be published. -/
def CPc.seen : CPc → Int
  | .wait nx => nx - 1
  | .scan _ _ x => x - 1
  | .batch _ av | .handle _ av => av

/-- The numbers in a program counter are in order. -/
def CPc.Ok (cur : Int) : CPc → Prop
  | .wait nx => 0 ≤ nx
  | .scan nx hi x => 0 ≤ nx ∧ nx ≤ x ∧ x ≤ hi ∧ hi ≤ cur
  | .batch nx av => 0 ≤ nx ∧ nx ≤ av + 1
  | .handle nx av => 0 ≤ nx ∧ nx ≤ av

theorem CPc.Ok.low_pos {cur : Int} {p : CPc} (h : p.Ok cur) : 0 ≤ p.low ∧ p.low ≤ p.pos ∧ p.pos ≤ p.seen + 1 := by
  cases p <;> simp only [CPc.Ok, CPc.low, CPc.pos, CPc.seen] at * <;> omega

theorem CPc.Ok.mono {cur cur' : Int} {p : CPc} (h : p.Ok cur) (hc : cur ≤ cur') : p.Ok cur' := by
  cases p <;> simp only [CPc.Ok] at * <;> omega

/-- No sequence strictly between `q` and `p` uses slot `x`. -/
def Fresh (k : Nat) (q p : Int) (x : Nat) : Prop := ∀ y, q < y → y < p → slotIdx k y ≠ x

theorem Fresh.mono {k : Nat} {q q' p p' : Int} {x : Nat} (h : Fresh k q p x) (hq : q ≤ q') (hp : p' ≤ p) : Fresh k q' p' x :=
  fun y h1 h2 => h y (by omega) (by omega)

theorem slot_ne {k : Nat} (hk : k ≤ 30) {x y : Int} (h1 : x < y) (h2 : y < x + 2 ^ k) : slotIdx k x ≠ slotIdx k y := by
  rw [slotIdx_eq hk, slotIdx_eq hk]
  have hp : (0 : Int) < 2 ^ k := Int.pow_pos (by decide)
  rw [Ne, idx_eq_iff]
  intro h
  have := emod_inj hp h (by omega) (by omega)
  omega

/-- Different sequences within one lap have different slots. -/
theorem slot_ne' {k : Nat} (hk : k ≤ 30) {cur x y : Int} (hxy : x ≠ y) (h1 : cur - 2 ^ k < x) (h2 : cur - 2 ^ k < y) (h3 : x ≤ cur) (h4 : y ≤ cur) :
    slotIdx k x ≠ slotIdx k y := by
  rcases Int.lt_or_gt_of_ne hxy with h | h
  · exact slot_ne hk h (by omega)
  · exact (slot_ne hk h (by omega)).symm

theorem slot_sub {k : Nat} (hk : k ≤ 30) (x : Int) : slotIdx k (x - 2 ^ k) = slotIdx k x := by
  rw [slotIdx_eq hk, slotIdx_eq hk, Int.sub_emod_right]

theorem slot_avail {k : Nat} (hk : k ≤ 30) (x : Int) : availIdx k x = slotIdx k x := by
  rw [slotIdx_eq hk, availIdx_eq hk]

/-- What is known of processor `c` through the view `u` together with the sequence `q`. -/
def KnC (k : Nat) (s : St V) (c : Nat) (q : Int) (u : View) : Prop :=
  q < (s.cp c).low ∧ ∀ z, Fresh k q (s.cp c).pos z → s.mem.reads (slotO z) (procT c) ≤ u.r (slotO z) (procT c)

/-- The writes to the slots of the current lap up to sequence `q` are known. -/
def W (sync : Bool) (k : Nat) (s : St V) (q : Int) (u : View) : Prop :=
  sync = true → ∀ y, y ≤ q → s.cur - 2 ^ k < y → (s.mem.writes (slotO (slotIdx k y))).length ≤ u.w (slotO (slotIdx k y))

/-- Both, for all processors. -/
def Kn (sync : Bool) (k : Nat) (G : List Nat) (s : St V) (q : Int) (u : View) : Prop :=
  (∀ c ∈ G, KnC k s c q u) ∧ W sync k s q u

def PPc.Ok : PPc → Prop
  | .idle => True
  | .load _ n | .cache _ n _ | .scan _ n _ _ _ | .set _ n _ _ | .cas _ n _ => 1 ≤ n

/-- What a producer in a call knows. -/
def PInv (sync : Bool) (k : Nat) (G : List Nat) (s : St V) (u : View) : PPc → Prop
  | .scan _ _ _ rest m => (∀ c ∈ rest, c ∈ G) ∧ ∀ c ∈ G, c ∉ rest → KnC k s c m u ∧ W sync k s m u
  | .set _ _ _ m => Kn sync k G s m u
  | .cas b n cur => ∃ q, wrap k b n cur ≤ q ∧ Kn sync k G s q u
  | _ => True

/-- Message of a flag: the initial one or that of a published sequence. -/
def FMsg (sync : Bool) (k : Nat) (s : St V) (j : Nat) (g : Msg) : Prop :=
  g.val = -1 ∨ ∃ x, availIdx k x = j ∧ g.val = availFlag k x ∧ 0 ≤ x ∧ x ≤ s.cur ∧ s.owner x = none ∧
    (sync = true → s.cur - 2 ^ k < x → (s.mem.writes (slotO (slotIdx k x))).length ≤ g.view.w (slotO (slotIdx k x)))

structure Inv (sync : Bool) (k : Nat) (G : List Nat) (s : St V) : Prop where
  good : s.mem.Good
  lo : -1 ≤ s.cur
  hi : s.cur < 2 ^ 31
  cmsgs : ∀ g ∈ s.mem.msgs cursorV, g.val ≤ s.cur
  clast : ∃ w, (s.mem.msgs cursorV).getLast? = some ⟨s.cur, w⟩
  cap : ∀ c ∈ G, s.cur - 2 ^ k < (s.cp c).low
  ownR : ∀ x p, s.owner x = some p → 0 ≤ x ∧ x ≤ s.cur
  seen : ∀ c ∈ G, ∀ y, y ≤ (s.cp c).seen → y ≤ s.cur ∧ s.owner y = none
  cok : ∀ c, (s.cp c).Ok s.cur
  out : ∀ c, c ∉ G → s.cp c = .wait 0 ∧ ∀ z, s.mem.reads (slotO z) (procT c) = 0
  preads : ∀ p z, s.mem.reads (slotO z) (prodT p) = 0
  creads : ∀ c z, s.mem.reads (slotO z) (procT c) ≤ (s.mem.view (procT c)).r (slotO z) (procT c)
  procW : ∀ c ∈ G, W sync k s (s.cp c).seen (s.mem.view (procT c))
  cacheM : ∀ g ∈ s.mem.msgs cacheV, Kn sync k G s g.val g.view
  seqM : ∀ c ∈ G, ∀ g ∈ s.mem.msgs (seqV c), KnC k s c g.val g.view ∧ W sync k s g.val g.view
  flagM : ∀ j, ∀ g ∈ s.mem.msgs (flagV j), FMsg sync k s j g
  own : ∀ x p, s.owner x = some p → (∃ q, x - 2 ^ k ≤ q ∧ ∀ c ∈ G, KnC k s c q (s.mem.view (prodT p))) ∧
    (sync = true → (s.mem.writes (slotO (slotIdx k x))).length ≤ (s.mem.view (prodT p)).w (slotO (slotIdx k x)))
  pok : ∀ p, (s.pp p).Ok
  pinv : ∀ p, PInv sync k G s (s.mem.view (prodT p)) (s.pp p)
  nonempty : ∀ z, s.mem.writes z ≠ []
  valR : ∀ x v, s.val x = some v → 0 ≤ x ∧ x ≤ s.cur
  valTop : ∀ x v, s.cur - 2 ^ k < x → s.val x = some v → (s.mem.writes (slotO (slotIdx k x))).head? = some (some v)
  logs : ∀ c x v, (x, v) ∈ s.log c → x ≤ s.cur ∧ s.owner x = none ∧ ∀ v', s.val x = some v' → v = some v'

theorem Inv.init (sync : Bool) (k : Nat) (G : List Nat) : Inv sync k G (St.init : St V) := by
  have hp : (0 : Int) < 2 ^ k := Int.pow_pos (by decide)
  have hw : ∀ q, W sync k (St.init : St V) q .start := fun q _ y _ _ => Nat.le_refl _
  have hk : ∀ c, KnC k (St.init : St V) c (-1) .start := fun c => ⟨by simp [St.init, CPc.low], fun z _ => Nat.le_refl _⟩
  constructor
  · exact Mem.good_init _ _
  · exact Int.le_refl _
  · simp [St.init]
  · intro g hg; simp only [St.init, Mem.init, List.mem_singleton] at hg ⊢; subst hg; exact Int.le_refl _
  · exact ⟨_, rfl⟩
  · intro c _; simp only [St.init, CPc.low]; omega
  · intro x p h; cases h
  · intro c _ y hy; simp only [St.init, CPc.seen] at hy ⊢; exact ⟨by omega, trivial⟩
  · intro c; exact Int.le_refl _
  · intro c _; exact ⟨rfl, fun _ => rfl⟩
  · intro p z; rfl
  · intro c z; exact Nat.le_refl _
  · intro c _; exact hw _
  · intro g hg; simp only [St.init, Mem.init, List.mem_singleton] at hg; subst hg; exact ⟨fun c _ => hk c, hw _⟩
  · intro c _ g hg; simp only [St.init, Mem.init, List.mem_singleton] at hg; subst hg; exact ⟨hk c, hw _⟩
  · intro j g hg; simp only [St.init, Mem.init, List.mem_singleton] at hg; subst hg; exact Or.inl rfl
  · intro x p h; cases h
  · intro p; trivial
  · intro p; trivial
  · intro z; simp [St.init, Mem.init]
  · intro x v h; cases h
  · intro x v _ h; cases h
  · intro c x v h; cases h

/-- An owned sequence lies above everything the processors have seen. -/
theorem Inv.own_gt {sync : Bool} {k : Nat} {G : List Nat} {s : St V} (hi : Inv sync k G s) {x : Int} {p : Nat} (hx : s.owner x = some p)
    {c : Nat} (hc : c ∈ G) : (s.cp c).seen < x := by
  rcases Int.lt_or_le (s.cp c).seen x with h | h
  · exact h
  · have := (hi.seen c hc x h).2
    rw [hx] at this; cases this

theorem Inv.own_lap {sync : Bool} {k : Nat} {G : List Nat} (hG : G ≠ []) {s : St V} (hi : Inv sync k G s) {x : Int} {p : Nat}
    (hx : s.owner x = some p) : s.cur - 2 ^ k < x := by
  obtain ⟨c, t, rfl⟩ := List.exists_cons_of_ne_nil hG
  have hc : c ∈ c :: t := by simp
  have h1 := hi.own_gt hx hc
  have h2 := hi.cap c hc
  have h3 := (hi.cok c).low_pos
  omega

/-- What every step does. -/
structure Mono (sync : Bool) (k : Nat) (G : List Nat) (s s' : St V) : Prop where
  cur : s.cur ≤ s'.cur
  low : ∀ c ∈ G, (s.cp c).low ≤ (s'.cp c).low
  pos : ∀ c ∈ G, (s.cp c).pos ≤ (s'.cp c).pos
  reads : ∀ c ∈ G, ∀ z, Fresh k ((s.cp c).low - 1) (s'.cp c).pos z → s'.mem.reads (slotO z) (procT c) ≤ s.mem.reads (slotO z) (procT c)
  writes : ∀ y, s.owner y = none → y ≤ s.cur → s'.cur - 2 ^ k < y → s'.mem.writes (slotO (slotIdx k y)) = s.mem.writes (slotO (slotIdx k y))
  pub : ∀ y, s.owner y = none → y ≤ s.cur → s'.owner y = none

theorem KnC.mono {sync : Bool} {k : Nat} {G : List Nat} {s s' : St V} (hm : Mono sync k G s s') {c : Nat} (hc : c ∈ G) {q q' : Int} {u u' : View}
    (h : KnC k s c q u) (hu : u.Le u') (hq : q' ≤ q) : KnC k s' c q' u' := by
  have hl := hm.low c hc
  have hl2 := h.1
  refine ⟨by omega, fun z hz => ?_⟩
  have h1 := hm.reads c hc z (hz.mono (by omega) (Int.le_refl _))
  have h2 := h.2 z (hz.mono hq (hm.pos c hc))
  have h3 := hu.r (slotO z) (procT c)
  omega

theorem W.mono {sync : Bool} {k : Nat} {G : List Nat} {s s' : St V} (hi : Inv sync k G s) (hm : Mono sync k G s s') {c : Nat} (hc : c ∈ G)
    {q q' : Int} {u u' : View} (h : W sync k s q u) (hq : q ≤ (s.cp c).seen) (hu : u.Le u') (hq' : q' ≤ q) : W sync k s' q' u' := by
  intro hs y hy hcur
  obtain ⟨h1, h2⟩ := hi.seen c hc y (by omega)
  rw [hm.writes y h2 h1 hcur]
  have := hm.cur
  exact Nat.le_trans (h hs y (by omega) (by omega)) (hu.w _)

theorem Inv.low_seen {sync : Bool} {k : Nat} {G : List Nat} {s : St V} (hi : Inv sync k G s) {c : Nat} {q : Int} (h : q < (s.cp c).low) :
    q ≤ (s.cp c).seen := by
  have := (hi.cok c).low_pos
  omega

theorem Kn.mono {sync : Bool} {k : Nat} {G : List Nat} (hG : G ≠ []) {s s' : St V} (hi : Inv sync k G s) (hm : Mono sync k G s s') {q q' : Int}
    {u u' : View} (h : Kn sync k G s q u) (hu : u.Le u') (hq : q' ≤ q) : Kn sync k G s' q' u' := by
  refine ⟨fun c hc => (h.1 c hc).mono hm hc hu hq, ?_⟩
  obtain ⟨c, t, rfl⟩ := List.exists_cons_of_ne_nil hG
  exact W.mono hi hm (c := c) (by simp) h.2 (hi.low_seen (h.1 c (by simp)).1) hu hq

theorem KnW.mono {sync : Bool} {k : Nat} {G : List Nat} {s s' : St V} (hi : Inv sync k G s) (hm : Mono sync k G s s') {c : Nat} (hc : c ∈ G)
    {q q' : Int} {u u' : View} (h : KnC k s c q u ∧ W sync k s q u) (hu : u.Le u') (hq : q' ≤ q) : KnC k s' c q' u' ∧ W sync k s' q' u' :=
  ⟨h.1.mono hm hc hu hq, W.mono hi hm hc h.2 (hi.low_seen h.1.1) hu hq⟩

theorem PInv.mono {sync : Bool} {k : Nat} {G : List Nat} (hG : G ≠ []) {s s' : St V} (hi : Inv sync k G s) (hm : Mono sync k G s s')
    {u u' : View} {p : PPc} (h : PInv sync k G s u p) (hu : u.Le u') : PInv sync k G s' u' p := by
  cases p with
  | scan b n cur rest m => exact ⟨h.1, fun c hc hr => KnW.mono hi hm hc (h.2 c hc hr) hu (Int.le_refl _)⟩
  | set b n cur m => exact Kn.mono hG hi hm h hu (Int.le_refl _)
  | cas b n cur => obtain ⟨q, h1, h2⟩ := h; exact ⟨q, h1, Kn.mono hG hi hm h2 hu (Int.le_refl _)⟩
  | idle => trivial
  | load b n => trivial
  | cache b n cur => trivial

theorem FMsg.mono {sync : Bool} {k : Nat} {G : List Nat} {s s' : St V} (hm : Mono sync k G s s') {j : Nat} {g : Msg}
    (h : FMsg sync k s j g) : FMsg sync k s' j g := by
  rcases h with h | ⟨x, h1, h2, h3, h4, h5, h6⟩
  · exact Or.inl h
  · have hc := hm.cur
    refine Or.inr ⟨x, h1, h2, h3, by omega, hm.pub x h5 h4, fun hs hx => ?_⟩
    rw [hm.writes x h5 h4 hx]
    exact h6 hs (by omega)

theorem prod_ne_proc (p c : Nat) : prodT p ≠ procT c := by unfold prodT procT; omega
theorem proc_inj {c d : Nat} (h : procT c = procT d) : c = d := by unfold procT at h; omega
theorem prod_inj {c d : Nat} (h : prodT c = prodT d) : c = d := by unfold prodT at h; omega
theorem slot_ne_flag (z j : Nat) : slotO z ≠ flagO j := by unfold slotO flagO; omega
theorem slotO_inj {c d : Nat} (h : slotO c = slotO d) : c = d := by unfold slotO at h; omega
theorem seq_ne (c : Nat) : seqV c ≠ cursorV ∧ seqV c ≠ cacheV ∧ ∀ j, seqV c ≠ flagV j := by
  unfold seqV cursorV cacheV flagV; refine ⟨by omega, by omega, fun j => by omega⟩
theorem flag_ne (j : Nat) : flagV j ≠ cursorV ∧ flagV j ≠ cacheV ∧ ∀ c, flagV j ≠ seqV c := by
  unfold seqV cursorV cacheV flagV; refine ⟨by omega, by omega, fun j => by omega⟩
theorem seq_inj {c d : Nat} (h : seqV c = seqV d) : c = d := by unfold seqV at h; omega
theorem flagV_inj {c d : Nat} (h : flagV c = flagV d) : c = d := by unfold flagV at h; omega

section
variable {sync : Bool} {k : Nat} {G : List Nat} (hG : G ≠ []) {s : St V} (hi : Inv sync k G s)
include hG hi

/-- A step of a producer that changes only its view and its program counter. -/
theorem inv_prod {p : Nat} {mem : Mem (Option V)} {pc : PPc} (hst : Mem.Step s.mem mem (prodT p))
    (hmsgs : ∀ l, mem.msgs l = s.mem.msgs l ∨ (l = cacheV ∧ ∃ q w, mem.msgs l = s.mem.msgs l ++ [⟨q, w⟩] ∧ Kn sync k G s q w))
    (hwr : mem.writes = s.mem.writes) (hrd : mem.reads = s.mem.reads) (hok : pc.Ok)
    (hp : PInv sync k G s (mem.view (prodT p)) pc) : Inv sync k G { s with mem := mem, pp := upd s.pp p pc } := by
  have hm : Mono sync k G s { s with mem := mem, pp := upd s.pp p pc } :=
    ⟨Int.le_refl _, fun _ _ => Int.le_refl _, fun _ _ => Int.le_refl _, fun c _ z _ => by simp only [hrd]; exact Nat.le_refl _,
      fun y _ _ _ => by simp only [hwr], fun y h _ => h⟩
  have hmsg : ∀ l, l ≠ cacheV → mem.msgs l = s.mem.msgs l := fun l hl => by
    rcases hmsgs l with h | ⟨h, _⟩
    · exact h
    · exact absurd h hl
  have hview : ∀ c, mem.view (procT c) = s.mem.view (procT c) := fun c => hst.other _ (prod_ne_proc p c).symm
  exact {
    good := hst.good
    lo := hi.lo
    hi := hi.hi
    cmsgs := fun g hg => hi.cmsgs g (by rw [← hmsg cursorV (by decide)]; exact hg)
    clast := by dsimp only; rw [hmsg cursorV (by decide)]; exact hi.clast
    cap := hi.cap
    ownR := hi.ownR
    seen := hi.seen
    cok := hi.cok
    out := fun c hc => ⟨(hi.out c hc).1, fun z => by simp only [hrd]; exact (hi.out c hc).2 z⟩
    preads := fun p z => by simp only [hrd]; exact hi.preads p z
    creads := fun c z => by simp only [hrd, hview]; exact hi.creads c z
    procW := fun c hc => W.mono hi hm hc (hi.procW c hc) (Int.le_refl _) (hst.grow _) (Int.le_refl _)
    cacheM := fun g hg => by
      rcases hmsgs cacheV with h | ⟨_, q, w, h1, h2⟩
      · exact Kn.mono hG hi hm (hi.cacheM g (by rw [← h]; exact hg)) (View.Le.refl _) (Int.le_refl _)
      · have hg' : g ∈ mem.msgs cacheV := hg
        rw [h1, List.mem_append, List.mem_singleton] at hg'
        rcases hg' with hg' | rfl
        · exact Kn.mono hG hi hm (hi.cacheM g hg') (View.Le.refl _) (Int.le_refl _)
        · exact Kn.mono hG hi hm h2 (View.Le.refl _) (Int.le_refl _)
    seqM := fun c hc g hg => KnW.mono hi hm hc (hi.seqM c hc g (by rw [← hmsg (seqV c) (seq_ne c).2.1]; exact hg)) (View.Le.refl _) (Int.le_refl _)
    flagM := fun j g hg => FMsg.mono hm (hi.flagM j g (by rw [← hmsg (flagV j) (flag_ne j).2.1]; exact hg))
    own := fun x r hx => by
      obtain ⟨⟨q, h1, h2⟩, h3⟩ := hi.own x r hx
      exact ⟨⟨q, h1, fun c hc => (h2 c hc).mono hm hc (hst.grow _) (Int.le_refl _)⟩, fun hs => by
        simp only [hwr]; exact Nat.le_trans (h3 hs) ((hst.grow _).w _)⟩
    pok := fun r => by
      simp only [upd_apply]
      split
      · exact hok
      · exact hi.pok r
    pinv := fun r => by
      by_cases e : r = p
      · subst e
        simp only [upd_same]
        exact PInv.mono hG hi hm hp (View.Le.refl _)
      · simp only [upd_other _ _ e]
        exact PInv.mono hG hi hm (hi.pinv r) (hst.grow _)
    nonempty := fun z => by simp only [hwr]; exact hi.nonempty z
    valR := hi.valR
    valTop := fun x v h1 h2 => by simp only [hwr]; exact hi.valTop x v h1 h2
    logs := hi.logs }

/-- A step of a processor that changes its view, its program counter and perhaps its sequence; it may read flags. -/
theorem inv_proc {c : Nat} (hc : c ∈ G) {mem : Mem (Option V)} {pc : CPc} (hst : Mem.Step s.mem mem (procT c))
    (hmsgs : ∀ l, mem.msgs l = s.mem.msgs l ∨ (l = seqV c ∧ ∃ q, mem.msgs l = s.mem.msgs l ++ [⟨q, (s.mem.view (procT c)).see l (s.mem.msgs l).length⟩] ∧
      q < pc.low ∧ q ≤ (s.cp c).seen))
    (hwr : mem.writes = s.mem.writes) (hrd : ∀ z t, mem.reads (slotO z) t = s.mem.reads (slotO z) t) (hok : pc.Ok s.cur)
    (hlow : (s.cp c).low ≤ pc.low) (hpos : (s.cp c).pos ≤ pc.pos)
    (hseen : ∀ y, y ≤ pc.seen → y ≤ s.cur ∧ s.owner y = none) (hW : W sync k s pc.seen (mem.view (procT c))) :
    Inv sync k G { s with mem := mem, cp := upd s.cp c pc } := by
  have hlow' : ∀ d, (s.cp d).low ≤ ((upd s.cp c pc) d).low := by
    intro d
    simp only [upd_apply]
    split
    · next e => subst e; exact hlow
    · exact Int.le_refl _
  have hm : Mono sync k G s { s with mem := mem, cp := upd s.cp c pc } := by
    refine ⟨Int.le_refl _, fun d _ => hlow' d, fun d _ => ?_, fun d _ z _ => by simp only [hrd]; exact Nat.le_refl _,
      fun y _ _ _ => by simp only [hwr], fun y h _ => h⟩
    simp only [upd_apply]
    split
    · next e => subst e; exact hpos
    · exact Int.le_refl _
  have hmsg : ∀ l, (∀ d, l ≠ seqV d) → mem.msgs l = s.mem.msgs l := fun l hl => by
    rcases hmsgs l with h | ⟨h, _⟩
    · exact h
    · exact absurd h (hl c)
  have hprod : ∀ p, mem.view (prodT p) = s.mem.view (prodT p) := fun p => hst.other _ (prod_ne_proc p c)
  exact {
    good := hst.good
    lo := hi.lo
    hi := hi.hi
    cmsgs := fun g hg => hi.cmsgs g (by rw [← hmsg cursorV (fun d => (seq_ne d).1.symm)]; exact hg)
    clast := by dsimp only; rw [hmsg cursorV (fun d => (seq_ne d).1.symm)]; exact hi.clast
    cap := fun d hd => Int.lt_of_lt_of_le (hi.cap d hd) (hlow' d)
    ownR := hi.ownR
    seen := fun d hd => by
      by_cases e : d = c
      · subst e; simp only [upd_same]; exact hseen
      · simp only [upd_other _ _ e]; exact hi.seen d hd
    cok := fun d => by
      by_cases e : d = c
      · subst e; simp only [upd_same]; exact hok
      · simp only [upd_other _ _ e]; exact hi.cok d
    out := fun d hd => by
      have e : d ≠ c := fun e => hd (e ▸ hc)
      refine ⟨by simp only [upd_other _ _ e]; exact (hi.out d hd).1, fun z => by simp only [hrd]; exact (hi.out d hd).2 z⟩
    preads := fun p z => by simp only [hrd]; exact hi.preads p z
    creads := fun d z => by
      simp only [hrd]
      exact Nat.le_trans (hi.creads d z) ((hst.grow _).r _ _)
    procW := fun d hd => by
      by_cases e : d = c
      · subst e
        simp only [upd_same]
        intro hs y hy hcur
        simp only [hwr]
        exact hW hs y hy hcur
      · simp only [upd_other _ _ e]
        exact W.mono hi hm hd (hi.procW d hd) (Int.le_refl _) (hst.grow _) (Int.le_refl _)
    cacheM := fun g hg => Kn.mono hG hi hm (hi.cacheM g (by rw [← hmsg cacheV (fun d => (seq_ne d).2.1.symm)]; exact hg)) (View.Le.refl _) (Int.le_refl _)
    seqM := fun d hd g hg => by
      have hold : g ∈ s.mem.msgs (seqV d) → _ := fun hg => KnW.mono hi hm hd (hi.seqM d hd g hg) (View.Le.refl _) (Int.le_refl _)
      rcases hmsgs (seqV d) with h | ⟨h, q, h1, h2, h3⟩
      · exact hold (by rw [← h]; exact hg)
      · have hg' : g ∈ mem.msgs (seqV d) := hg
        rw [h1, List.mem_append, List.mem_singleton] at hg'
        rcases hg' with hg' | rfl
        · exact hold hg'
        · have e := seq_inj h
          subst e
          refine ⟨⟨by simp only [upd_same]; exact h2, fun z _ => by simp only [hrd]; exact hi.creads d z⟩, ?_⟩
          exact W.mono hi hm hd (hi.procW d hd) (Int.le_refl _) (View.le_see _ _ _) h3
    flagM := fun j g hg => FMsg.mono hm (hi.flagM j g (by rw [← hmsg (flagV j) (flag_ne j).2.2]; exact hg))
    own := fun x r hx => by
      obtain ⟨⟨q, h1, h2⟩, h3⟩ := hi.own x r hx
      exact ⟨⟨q, h1, fun c hc => (h2 c hc).mono hm hc (hst.grow _) (Int.le_refl _)⟩, fun hs => by
        simp only [hwr]; exact Nat.le_trans (h3 hs) ((hst.grow _).w _)⟩
    pok := hi.pok
    pinv := fun r => PInv.mono hG hi hm (hi.pinv r) (hst.grow _)
    nonempty := fun z => by simp only [hwr]; exact hi.nonempty z
    valR := hi.valR
    valTop := fun x v h1 h2 => by simp only [hwr]; exact hi.valTop x v h1 h2
    logs := hi.logs }

omit hG in
theorem Mono.refl : Mono sync k G s s :=
  ⟨Int.le_refl _, fun _ _ => Int.le_refl _, fun _ _ => Int.le_refl _, fun _ _ _ _ => Nat.le_refl _, fun _ _ _ _ => rfl, fun _ h _ => h⟩

omit hG in
theorem step_refl (t : Nat) : Mem.Step s.mem s.mem t := ⟨hi.good, fun _ => View.Le.refl _, fun _ _ => rfl⟩

theorem inv_pc {p : Nat} {pc : PPc} (hok : pc.Ok) (hp : PInv sync k G s (s.mem.view (prodT p)) pc) :
    Inv sync k G { s with pp := upd s.pp p pc } :=
  inv_prod hG hi (step_refl hi (prodT p)) (fun _ => Or.inl rfl) rfl rfl hok hp

theorem inv_cas (hk : k ≤ 30) {p : Nat} {b : Bool} {n cur q : Int} {mem : Mem (Option V)} (hpp : s.pp p = .cas b n cur) (hcur : s.cur = cur)
    (hr : s.mem.rmw (prodT p) cursorV (fun _ => cur + n) = some (q, mem)) (hlim : cur + n < 2 ^ 31) :
    Inv sync k G { s with
          mem := mem
          cur := cur + n
          owner := fun x => if cur < x ∧ x ≤ cur + n then some p else s.owner x
          pp := upd s.pp p .idle } := by
  subst hcur
  obtain ⟨hst, hwr, hrd, _, w, hmsgs⟩ := Mem.rmw_step hi.good hr
  have hn : 1 ≤ n := by have := hi.pok p; rw [hpp] at this; exact this
  have hlo := hi.lo
  have hp := hi.pinv p
  rw [hpp] at hp
  obtain ⟨q0, hq0, hkn⟩ := hp
  have hwrap : wrap k b n s.cur = s.cur + n - 2 ^ k := by
    unfold wrap
    cases b with
    | false => rfl
    | true =>
      simp only [if_true]
      rw [toInt32_small (x := s.cur) (by omega) (by omega), toInt32_small (x := s.cur + n) (by omega) (by omega)]
  rw [hwrap] at hq0
  have hold : ∀ y, y ≤ s.cur → (if s.cur < y ∧ y ≤ s.cur + n then some p else s.owner y) = s.owner y :=
    fun y hy => if_neg (by omega)
  have hmo : Mono sync k G s { s with
          mem := mem
          cur := s.cur + n
          owner := fun x => if s.cur < x ∧ x ≤ s.cur + n then some p else s.owner x
          pp := upd s.pp p .idle } := by
    refine ⟨by show s.cur ≤ s.cur + n; omega, fun _ _ => Int.le_refl _, fun _ _ => Int.le_refl _, fun c _ z _ => by simp only [hrd]; exact Nat.le_refl _,
      fun y _ _ _ => by simp only [hwr], fun y h h' => ?_⟩
    show (if s.cur < y ∧ y ≤ s.cur + n then some p else s.owner y) = none
    rw [hold y h']; exact h
  have hother : ∀ l, l ≠ cursorV → mem.msgs l = s.mem.msgs l := fun l hl => by rw [hmsgs]; exact upd_other _ _ hl
  exact {
    good := hst.good
    lo := by show -1 ≤ s.cur + n; omega
    hi := hlim
    cmsgs := fun g hg => by
      have hg' : g ∈ mem.msgs cursorV := hg
      rw [hmsgs, upd_same, List.mem_append, List.mem_singleton] at hg'
      rcases hg' with h | rfl
      · have := hi.cmsgs g h; show g.val ≤ s.cur + n; omega
      · exact Int.le_refl _
    clast := ⟨w, by dsimp only; rw [hmsgs, upd_same, List.getLast?_append]; rfl⟩
    cap := fun c hc => by
      have := (hkn.1 c hc).1
      show s.cur + n - 2 ^ k < (s.cp c).low
      omega
    ownR := fun x r hx => by
      have hx' : (if s.cur < x ∧ x ≤ s.cur + n then some p else s.owner x) = some r := hx
      show 0 ≤ x ∧ x ≤ s.cur + n
      split at hx'
      · omega
      · have := hi.ownR x r hx'; omega
    seen := fun c hc y hy => by
      obtain ⟨h1, h2⟩ := hi.seen c hc y hy
      exact ⟨Int.le_trans h1 hmo.cur, hmo.pub y h2 h1⟩
    cok := fun c => (hi.cok c).mono hmo.cur
    out := fun c hc => ⟨(hi.out c hc).1, fun z => by simp only [hrd]; exact (hi.out c hc).2 z⟩
    preads := fun p z => by simp only [hrd]; exact hi.preads p z
    creads := fun c z => by simp only [hrd]; exact Nat.le_trans (hi.creads c z) ((hst.grow _).r _ _)
    procW := fun c hc => W.mono hi hmo hc (hi.procW c hc) (Int.le_refl _) (hst.grow _) (Int.le_refl _)
    cacheM := fun g hg => Kn.mono hG hi hmo (hi.cacheM g (by rw [← hother cacheV (by decide)]; exact hg)) (View.Le.refl _) (Int.le_refl _)
    seqM := fun c hc g hg => KnW.mono hi hmo hc (hi.seqM c hc g (by rw [← hother (seqV c) (seq_ne c).1]; exact hg)) (View.Le.refl _) (Int.le_refl _)
    flagM := fun j g hg => FMsg.mono hmo (hi.flagM j g (by rw [← hother (flagV j) (flag_ne j).1]; exact hg))
    own := fun x r hx => by
      have hx' : (if s.cur < x ∧ x ≤ s.cur + n then some p else s.owner x) = some r := hx
      split at hx'
      · next hr =>
        cases hx'
        refine ⟨⟨q0, by omega, fun c hc => (hkn.1 c hc).mono hmo hc (hst.grow _) (Int.le_refl _)⟩, fun hs => ?_⟩
        have := hkn.2 hs (x - 2 ^ k) (by omega) (by omega)
        rw [slot_sub hk] at this
        simp only [hwr]
        exact Nat.le_trans this ((hst.grow _).w _)
      · obtain ⟨⟨q, h1, h2⟩, h3⟩ := hi.own x r hx'
        exact ⟨⟨q, h1, fun c hc => (h2 c hc).mono hmo hc (hst.grow _) (Int.le_refl _)⟩, fun hs => by
          simp only [hwr]; exact Nat.le_trans (h3 hs) ((hst.grow _).w _)⟩
    pok := fun r => by
      simp only [upd_apply]
      split
      · trivial
      · exact hi.pok r
    pinv := fun r => by
      by_cases e : r = p
      · subst e
        simp only [upd_same]
        trivial
      · simp only [upd_other _ _ e]
        exact PInv.mono hG hi hmo (hi.pinv r) (hst.grow _)
    nonempty := fun z => by simp only [hwr]; exact hi.nonempty z
    valR := fun x v h => ⟨(hi.valR x v h).1, Int.le_trans (hi.valR x v h).2 hmo.cur⟩
    valTop := fun x v h1 h2 => by
      simp only [hwr]
      have h1' : s.cur + n - 2 ^ k < x := h1
      exact hi.valTop x v (by omega) h2
    logs := fun c x v h => by
      obtain ⟨h1, h2, h3⟩ := hi.logs c x v h
      exact ⟨Int.le_trans h1 hmo.cur, hmo.pub x h2 h1, h3⟩ }

theorem inv_pstep (hk : k ≤ 30) {p i : Nat} {s' : St V} (hs : pstep k G s p i = some s') (hlim : s'.cur < 2 ^ 31) : Inv sync k G s' := by
  have hok := hi.pok p
  have hpi := hi.pinv p
  unfold pstep at hs
  split at hs
  · cases hs
  · next b n hpp =>
    rw [hpp] at hok
    split at hs
    · next cur mem hl =>
      cases hs
      obtain ⟨hst, h1, h2, h3, _⟩ := Mem.load_step hi.good hl
      exact inv_prod hG hi hst (fun l => Or.inl (by rw [h1])) h2 h3 hok trivial
    · cases hs
  · next b n cur hpp =>
    rw [hpp] at hok
    split at hs
    · next q mem hl =>
      obtain ⟨hst, h1, h2, h3, g, hg, rfl, hle⟩ := Mem.load_step hi.good hl
      split at hs
      · cases hs
        exact inv_prod hG hi hst (fun l => Or.inl (by rw [h1])) h2 h3 hok ⟨fun c hc => hc, fun c hc hn => absurd hc hn⟩
      · next hw =>
        cases hs
        exact inv_prod hG hi hst (fun l => Or.inl (by rw [h1])) h2 h3 hok
          ⟨g.val, by omega, Kn.mono hG hi (Mono.refl hi) (hi.cacheM g hg) hle (Int.le_refl _)⟩
    · cases hs
  · next b n cur c rest m hpp =>
    rw [hpp] at hok hpi
    split at hs
    · next q mem hl =>
      cases hs
      obtain ⟨hst, h1, h2, h3, g, hg, rfl, hle⟩ := Mem.load_step hi.good hl
      refine inv_prod hG hi hst (fun l => Or.inl (by rw [h1])) h2 h3 hok ⟨fun d hd => hpi.1 d (by simp [hd]), fun d hd hdr => ?_⟩
      by_cases e : d = c
      · subst e
        exact KnW.mono hi (Mono.refl hi) hd (hi.seqM d hd g hg) hle (by split <;> omega)
      · exact KnW.mono hi (Mono.refl hi) hd (hpi.2 d hd (by simp [e, hdr])) (hst.grow _) (by split <;> omega)
    · cases hs
  · next b n cur m hpp =>
    rw [hpp] at hok hpi
    have hkn : Kn sync k G s m (s.mem.view (prodT p)) := by
      refine ⟨fun c hc => (hpi.2 c hc (by simp)).1, ?_⟩
      obtain ⟨c, t, rfl⟩ := List.exists_cons_of_ne_nil hG
      exact (hpi.2 c (by simp) (by simp)).2
    split at hs
    · cases hs; exact inv_pc hG hi hok trivial
    · cases hs; exact inv_pc hG hi hok hkn
  · next b n cur m hpp =>
    rw [hpp] at hok hpi
    cases hs
    have hkn : Kn sync k G s m (s.mem.view (prodT p)) := hpi
    refine inv_prod hG hi (Mem.store_step hi.good _ _ _) (fun l => ?_) rfl rfl ?_ ?_
    · by_cases e : l = cacheV
      · subst e
        refine Or.inr ⟨rfl, m, (s.mem.view (prodT p)).see cacheV (s.mem.msgs cacheV).length, by simp [Mem.store], ?_⟩
        exact Kn.mono hG hi (Mono.refl hi) hkn (View.le_see _ _ _) (Int.le_refl _)
      · exact Or.inl (upd_other _ _ e)
    · cases b with
      | false => exact hok
      | true =>
        simp only [if_true]
        split
        · trivial
        · exact hok
    · cases b with
      | false => trivial
      | true =>
        simp only [if_true]
        split
        · trivial
        · next hw =>
          refine ⟨m, by omega, ?_⟩
          exact Kn.mono hG hi (Mono.refl hi) hkn ((Mem.store_step hi.good (prodT p) cacheV m).grow _) (Int.le_refl _)
  · next b n cur hpp =>
    split at hs
    · next q mem hr =>
      split at hs
      · next hq =>
        cases hs
        have hcur : s.cur = cur := by
          obtain ⟨w, hw⟩ := hi.clast
          have hw' : s.mem.last cursorV = some ⟨s.cur, w⟩ := hw
          unfold Mem.rmw at hr
          rw [hw'] at hr
          cases hr
          exact hq
        exact inv_cas hG hi hk hpp hcur hr hlim
      · cases hs
    · cases hs

theorem inv_write (hk : k ≤ 30) {p : Nat} {x : Int} {v : V} (hx : s.owner x = some p) :
    Inv sync k G { s with mem := s.mem.write (prodT p) (slotO (slotIdx k x)) (some v), val := upd s.val x (some v) } := by
  have hst := Mem.write_step hi.good (prodT p) (slotO (slotIdx k x)) (some v)
  have hlap := hi.own_lap hG hx
  obtain ⟨hx0, hx1⟩ := hi.ownR x p hx
  have hne : ∀ y, y ≠ x → y ≤ s.cur → s.cur - 2 ^ k < y →
      (s.mem.write (prodT p) (slotO (slotIdx k x)) (some v)).writes (slotO (slotIdx k y)) = s.mem.writes (slotO (slotIdx k y)) := by
    intro y h1 h2 h3
    exact upd_other _ _ (fun e => slot_ne' hk h1 h3 hlap h2 hx1 (slotO_inj e))
  have hm : Mono sync k G s { s with mem := s.mem.write (prodT p) (slotO (slotIdx k x)) (some v), val := upd s.val x (some v) } := by
    refine ⟨Int.le_refl _, fun _ _ => Int.le_refl _, fun _ _ => Int.le_refl _, fun c _ z _ => Nat.le_refl _,
      fun y h1 h2 h3 => hne y (fun e => ?_) h2 h3, fun y h _ => h⟩
    rw [e, hx] at h1; cases h1
  exact {
    good := hst.good
    lo := hi.lo
    hi := hi.hi
    cmsgs := hi.cmsgs
    clast := hi.clast
    cap := hi.cap
    ownR := hi.ownR
    seen := hi.seen
    cok := hi.cok
    out := hi.out
    preads := hi.preads
    creads := fun c z => Nat.le_trans (hi.creads c z) ((hst.grow _).r _ _)
    procW := fun c hc => W.mono hi hm hc (hi.procW c hc) (Int.le_refl _) (hst.grow _) (Int.le_refl _)
    cacheM := fun g hg => Kn.mono hG hi hm (hi.cacheM g hg) (View.Le.refl _) (Int.le_refl _)
    seqM := fun c hc g hg => KnW.mono hi hm hc (hi.seqM c hc g hg) (View.Le.refl _) (Int.le_refl _)
    flagM := fun j g hg => FMsg.mono hm (hi.flagM j g hg)
    own := fun y r hy => by
      obtain ⟨⟨q, h1, h2⟩, h3⟩ := hi.own y r hy
      refine ⟨⟨q, h1, fun c hc => (h2 c hc).mono hm hc (hst.grow _) (Int.le_refl _)⟩, fun hs => ?_⟩
      by_cases e : y = x
      · subst e
        have hy' : s.owner y = some r := hy
        rw [hx] at hy'
        cases hy'
        simp [Mem.write]
      · have h4 := hne y e (hi.ownR y r hy).2 (hi.own_lap hG hy)
        dsimp only
        rw [h4]
        exact Nat.le_trans (h3 hs) ((hst.grow _).w _)
    pok := hi.pok
    pinv := fun r => PInv.mono hG hi hm (hi.pinv r) (hst.grow _)
    nonempty := fun z => by
      simp only [Mem.write, upd_apply]
      split
      · simp
      · exact hi.nonempty z
    valR := fun y w h => by
      by_cases e : y = x
      · subst e; exact ⟨hx0, hx1⟩
      · simp only [upd_other _ _ e] at h; exact hi.valR y w h
    valTop := fun y w h1 h2 => by
      by_cases e : y = x
      · subst e
        simp only [upd_same] at h2
        cases h2
        simp [Mem.write]
      · simp only [upd_other _ _ e] at h2
        have h4 := hne y e (hi.valR y w h2).2 h1
        dsimp only
        rw [h4]
        exact hi.valTop y w h1 h2
    logs := fun c y w h => by
      obtain ⟨h1, h2, h3⟩ := hi.logs c y w h
      refine ⟨h1, h2, fun v' hv' => h3 v' ?_⟩
      have e : y ≠ x := fun e => by rw [e, hx] at h2; cases h2
      simp only [upd_other _ _ e] at hv'
      exact hv' }

omit hG in
theorem setFlag_step (t j : Nat) (f : Int) :
    Mem.Step s.mem (setFlag sync s.mem t j f) t ∧
    (∃ w, (setFlag sync s.mem t j f).msgs = upd s.mem.msgs (flagV j) (s.mem.msgs (flagV j) ++ [⟨f, w⟩]) ∧ (sync = true → (s.mem.view t).Le w)) ∧
    (∀ z, (setFlag sync s.mem t j f).writes (slotO z) = s.mem.writes (slotO z)) ∧ (setFlag sync s.mem t j f).reads = s.mem.reads ∧
    ∀ z, (setFlag sync s.mem t j f).writes z ≠ [] := by
  unfold setFlag
  cases sync with
  | true =>
    exact ⟨Mem.store_step hi.good _ _ _, ⟨_, rfl, fun _ => View.le_see _ _ _⟩, fun _ => rfl, rfl, hi.nonempty⟩
  | false =>
    have h1 := Mem.storeRlx_step hi.good t (flagV j) f
    have h2 := Mem.write_step h1.good t (flagO j) (none : Option V)
    refine ⟨⟨h2.good, fun u => (h1.grow u).trans (h2.grow u), fun u hu => (h2.other u hu).trans (h1.other u hu)⟩, ⟨_, rfl, nofun⟩, ?_, rfl, ?_⟩
    · intro z
      exact upd_other _ _ (slot_ne_flag z j)
    · intro z
      simp only [Mem.write, upd_apply, Bool.false_eq_true, if_false]
      split
      · simp
      · exact hi.nonempty z

theorem inv_publish {p : Nat} {x : Int} (hx : s.owner x = some p) :
    Inv sync k G { s with mem := setFlag sync s.mem (prodT p) (availIdx k x) (availFlag k x), owner := upd s.owner x none } := by
  obtain ⟨hst, ⟨w, hmsgs, hw⟩, hwr, hrd, hne⟩ := setFlag_step hi (prodT p) (availIdx k x) (availFlag k x)
  generalize setFlag sync s.mem (prodT p) (availIdx k x) (availFlag k x) = mem at *
  obtain ⟨hx0, hx1⟩ := hi.ownR x p hx
  have hpub : ∀ y, s.owner y = none → upd s.owner x none y = none := by
    intro y h
    simp only [upd_apply]
    split
    · rfl
    · exact h
  have hm : Mono sync k G s { s with mem := mem, owner := upd s.owner x none } :=
    ⟨Int.le_refl _, fun _ _ => Int.le_refl _, fun _ _ => Int.le_refl _, fun c _ z _ => by simp only [hrd]; exact Nat.le_refl _,
      fun y _ _ _ => by simp only [hwr], fun y h _ => hpub y h⟩
  have hother : ∀ l, l ≠ flagV (availIdx k x) → mem.msgs l = s.mem.msgs l := fun l hl => by rw [hmsgs]; exact upd_other _ _ hl
  have hown : ∀ y r, upd s.owner x none y = some r → s.owner y = some r := by
    intro y r h
    simp only [upd_apply] at h
    split at h
    · cases h
    · exact h
  exact {
    good := hst.good
    lo := hi.lo
    hi := hi.hi
    cmsgs := fun g hg => hi.cmsgs g (by rw [← hother cursorV (flag_ne _).1.symm]; exact hg)
    clast := by dsimp only; rw [hother cursorV (flag_ne _).1.symm]; exact hi.clast
    cap := hi.cap
    ownR := fun y r h => hi.ownR y r (hown y r h)
    seen := fun c hc y hy => ⟨(hi.seen c hc y hy).1, hpub y (hi.seen c hc y hy).2⟩
    cok := hi.cok
    out := fun c hc => ⟨(hi.out c hc).1, fun z => by simp only [hrd]; exact (hi.out c hc).2 z⟩
    preads := fun p z => by simp only [hrd]; exact hi.preads p z
    creads := fun c z => by simp only [hrd]; exact Nat.le_trans (hi.creads c z) ((hst.grow _).r _ _)
    procW := fun c hc => W.mono hi hm hc (hi.procW c hc) (Int.le_refl _) (hst.grow _) (Int.le_refl _)
    cacheM := fun g hg => Kn.mono hG hi hm (hi.cacheM g (by rw [← hother cacheV (flag_ne _).2.1.symm]; exact hg)) (View.Le.refl _) (Int.le_refl _)
    seqM := fun c hc g hg => KnW.mono hi hm hc (hi.seqM c hc g (by rw [← hother (seqV c) ((flag_ne _).2.2 c).symm]; exact hg)) (View.Le.refl _) (Int.le_refl _)
    flagM := fun j g hg => by
      have hg' : g ∈ mem.msgs (flagV j) := hg
      by_cases e : j = availIdx k x
      · subst e
        rw [hmsgs, upd_same, List.mem_append, List.mem_singleton] at hg'
        rcases hg' with h | rfl
        · exact FMsg.mono hm (hi.flagM _ g h)
        · refine Or.inr ⟨x, rfl, rfl, hx0, hx1, upd_same _ _ _, fun hs _ => ?_⟩
          simp only [hwr]
          exact Nat.le_trans ((hi.own x p hx).2 hs) ((hw hs).w _)
      · rw [hother (flagV j) (fun h => e (flagV_inj h))] at hg'
        exact FMsg.mono hm (hi.flagM j g hg')
    own := fun y r hy => by
      obtain ⟨⟨q, h1, h2⟩, h3⟩ := hi.own y r (hown y r hy)
      exact ⟨⟨q, h1, fun c hc => (h2 c hc).mono hm hc (hst.grow _) (Int.le_refl _)⟩, fun hs => by
        simp only [hwr]; exact Nat.le_trans (h3 hs) ((hst.grow _).w _)⟩
    pok := hi.pok
    pinv := fun r => PInv.mono hG hi hm (hi.pinv r) (hst.grow _)
    nonempty := hne
    valR := hi.valR
    valTop := fun y v h1 h2 => by simp only [hwr]; exact hi.valTop y v h1 h2
    logs := fun c y v h => by
      obtain ⟨h1, h2, h3⟩ := hi.logs c y v h
      exact ⟨h1, hpub y h2, h3⟩ }

theorem inv_look {c i : Nat} {s' : St V} (hs : step sync k G s (.look c i) = some s') : Inv sync k G s' := by
  simp only [step] at hs
  split at hs
  · next nx hcp =>
    split at hs
    · next hc =>
      have hok := hi.cok c
      rw [hcp] at hok
      have hsn := hi.seen c hc
      have hpw := hi.procW c hc
      rw [hcp] at hsn hpw
      split at hs
      · next av mem hl =>
        obtain ⟨hst, h1, h2, h3, g, hg, rfl, hle⟩ := Mem.load_step hi.good hl
        have hW : W sync k s (nx - 1) (mem.view (procT c)) := fun hs y hy hcur => Nat.le_trans (hpw hs y hy hcur) ((hst.grow _).w _)
        split at hs
        · cases hs
          have := inv_proc hG hi hc (pc := .wait nx) hst (fun l => Or.inl (by rw [h1])) h2 (fun z t => by rw [h3]) hok
            (by rw [hcp]) (by rw [hcp]) hsn hW
          rwa [show upd s.cp c (.wait nx) = s.cp by
            funext d
            simp only [upd_apply]
            split
            · next e => rw [e, hcp]
            · rfl] at this
        · next hlt =>
          cases hs
          refine inv_proc hG hi hc (pc := .scan nx g.val nx) hst (fun l => Or.inl (by rw [h1])) h2 (fun z t => by rw [h3])
            ⟨hok, Int.le_refl _, by omega, hi.cmsgs g hg⟩
            (by rw [hcp]; simp [CPc.low]) (by rw [hcp]; simp [CPc.pos]) hsn hW
      · cases hs
    · cases hs
  · cases hs

omit hG in
theorem getFlag_step {t j i : Nat} {f : Int} {mem : Mem (Option V)} (h : getFlag sync s.mem t j i = some (f, mem)) :
    Mem.Step s.mem mem t ∧ mem.msgs = s.mem.msgs ∧ mem.writes = s.mem.writes ∧ (∀ z u, mem.reads (slotO z) u = s.mem.reads (slotO z) u) ∧
      ∃ g ∈ s.mem.msgs (flagV j), g.val = f ∧ (sync = true → g.view.Le (mem.view t)) := by
  unfold getFlag at h
  cases sync with
  | true =>
    obtain ⟨h1, h2, h3, h4, g, h5, h6, h7⟩ := Mem.load_step hi.good h
    exact ⟨h1, h2, h3, fun z u => by rw [h4], g, h5, h6, fun _ => h7⟩
  | false =>
    simp only [Bool.false_eq_true, if_false] at h
    split at h
    · next f' m1 hl =>
      obtain ⟨h1, h2, h3, h4, g, h5, h6⟩ := Mem.loadRlx_step hi.good hl
      simp only [Option.map_eq_some_iff, Prod.mk.injEq] at h
      obtain ⟨⟨v, m2⟩, hr, rfl, rfl⟩ := h
      obtain ⟨r1, r2, r3, _, r5, _⟩ := Mem.read_step h1.good hr
      refine ⟨⟨r1.good, fun u => (h1.grow u).trans (r1.grow u), fun u hu => (r1.other u hu).trans (h1.other u hu)⟩, r2.trans h2, r3.trans h3, ?_,
        g, h5, h6, nofun⟩
      intro z u
      rw [r5, upd_other _ _ (slot_ne_flag z j), h4]
    · cases h

theorem inv_flag (hk : k ≤ 30) {c i : Nat} {s' : St V} (hs : step sync k G s (.flag c i) = some s') : Inv sync k G s' := by
  simp only [step] at hs
  split at hs
  · next nx hh x hcp =>
    have hok := hi.cok c
    rw [hcp] at hok
    obtain ⟨o1, o2, o3, o4⟩ := hok
    have hc : c ∈ G := by
      by_cases hc : c ∈ G
      · exact hc
      · rw [(hi.out c hc).1] at hcp; cases hcp
    have hsn := hi.seen c hc
    have hpw := hi.procW c hc
    rw [hcp] at hsn hpw
    split at hs
    · next f mem hl =>
      obtain ⟨hst, h1, h2, h3, g, hg, rfl, hle⟩ := getFlag_step hi hl
      have hW : W sync k s (x - 1) (mem.view (procT c)) := fun hs y hy hcur => Nat.le_trans (hpw hs y hy hcur) ((hst.grow _).w _)
      split at hs
      · next hf =>
        have hB : (2 : Int) ^ 31 ≤ (2 ^ 32 - 1) * 2 ^ k := by
          have : (1 : Int) ≤ 2 ^ k := by
            have : (0 : Int) < 2 ^ k := Int.pow_pos (by decide)
            omega
          omega
        have hhi := hi.hi
        have hx : s.owner x = none ∧ (sync = true → s.cur - 2 ^ k < x →
            (s.mem.writes (slotO (slotIdx k x))).length ≤ g.view.w (slotO (slotIdx k x))) := by
          rcases hi.flagM _ g hg with h | ⟨y, y1, y2, y3, y4, y5, y6⟩
          · exact absurd (hf.symm.trans h) (flag_ne_init hk (by omega) (by omega))
          · have : y = x := flag_inj hk y3 (by omega) (by omega) (by omega)
              (by rwa [availIdx_eq hk, availIdx_eq hk, idx_eq_iff] at y1) (y2.symm.trans hf)
            subst this
            exact ⟨y5, y6⟩
        have hsn' : ∀ y, y ≤ x → y ≤ s.cur ∧ s.owner y = none := by
          intro y hy
          by_cases e : y = x
          · subst e; exact ⟨by omega, hx.1⟩
          · exact hsn y (by simp only [CPc.seen]; omega)
        have hW' : W sync k s x (mem.view (procT c)) := by
          intro hsy y hy hcur
          by_cases e : y = x
          · subst e; exact Nat.le_trans (hx.2 hsy hcur) ((hle hsy).w _)
          · exact hW hsy y (by omega) hcur
        cases hs
        by_cases e : x = hh
        · subst e
          simp only [if_true]
          refine inv_proc hG hi hc (pc := .batch nx x) hst (fun l => Or.inl (by rw [h1])) h2 h3 ⟨o1, by omega⟩
            (by rw [hcp]; exact Int.le_refl _) (by rw [hcp]; exact Int.le_refl _) hsn' hW'
        · simp only [if_neg e]
          refine inv_proc hG hi hc (pc := .scan nx hh (x + 1)) hst (fun l => Or.inl (by rw [h1])) h2 h3 ⟨o1, by omega, by omega, o4⟩
            (by rw [hcp]; exact Int.le_refl _) (by rw [hcp]; exact Int.le_refl _) (fun y hy => hsn' y (by simp only [CPc.seen] at hy; omega))
            (fun hs y hy hcur => hW' hs y (by simp only [CPc.seen] at hy; omega) hcur)
      · cases hs
        refine inv_proc hG hi hc (pc := .batch nx (x - 1)) hst (fun l => Or.inl (by rw [h1])) h2 h3 ⟨o1, by omega⟩
          (by rw [hcp]; exact Int.le_refl _) (by rw [hcp]; exact Int.le_refl _) hsn hW
    · cases hs
  · cases hs

omit hG hi in
theorem store_msgs (t c : Nat) (q : Int) (l : Nat) {r : Int} {lo : Int} (hq : q < lo) (hq' : q ≤ r) :
    (s.mem.store t (seqV c) q).msgs l = s.mem.msgs l ∨ (l = seqV c ∧ ∃ q', (s.mem.store t (seqV c) q).msgs l =
      s.mem.msgs l ++ [⟨q', (s.mem.view t).see l (s.mem.msgs l).length⟩] ∧ q' < lo ∧ q' ≤ r) := by
  by_cases e : l = seqV c
  · subst e
    exact Or.inr ⟨rfl, q, by simp [Mem.store], hq, hq'⟩
  · exact Or.inl (upd_other _ _ e)

omit hG in
theorem mem_G {c : Nat} (h : s.cp c ≠ .wait 0) : c ∈ G := by
  by_cases hc : c ∈ G
  · exact hc
  · exact absurd (hi.out c hc).1 h

theorem inv_advance {c : Nat} {s' : St V} (hs : step sync k G s (.advance c) = some s') : Inv sync k G s' := by
  simp only [step] at hs
  split at hs
  · next nx av hcp =>
    have hc : c ∈ G := mem_G hi (by rw [hcp]; nofun)
    have hok := hi.cok c
    have hsn := hi.seen c hc
    have hpw := hi.procW c hc
    rw [hcp] at hok hsn hpw
    obtain ⟨o1, o2⟩ := hok
    split at hs
    · next hle =>
      cases hs
      refine inv_proc hG hi hc (pc := .handle nx av) (step_refl hi _) (fun l => Or.inl rfl) rfl (fun _ _ => rfl) ⟨o1, hle⟩
        (by rw [hcp]; simp [CPc.low]) (by rw [hcp]; simp only [CPc.pos]; omega) hsn hpw
    · next hle =>
      cases hs
      have hst := Mem.store_step hi.good (procT c) (seqV c) av
      refine inv_proc hG hi hc (pc := .wait nx) hst (fun l => store_msgs _ _ _ l (by simp only [CPc.low]; omega) (by rw [hcp]; simp [CPc.seen]))
        rfl (fun _ _ => rfl) o1 (by rw [hcp]; simp [CPc.low]) (by rw [hcp]; simp [CPc.pos])
        (fun y hy => hsn y (by simp only [CPc.seen] at hy ⊢; omega))
        (fun hsy y hy hcur => Nat.le_trans (hpw hsy y (by simp only [CPc.seen] at hy ⊢; omega) hcur) ((hst.grow _).w _))
  · cases hs

theorem inv_finish {c : Nat} {s' : St V} (hs : step sync k G s (.finish c) = some s') : Inv sync k G s' := by
  simp only [step] at hs
  split at hs
  · next nx av hcp =>
    have hc : c ∈ G := mem_G hi (by rw [hcp]; nofun)
    have hok := hi.cok c
    have hsn := hi.seen c hc
    have hpw := hi.procW c hc
    rw [hcp] at hok hsn hpw
    obtain ⟨o1, o2⟩ := hok
    cases hs
    exact inv_proc hG hi hc (pc := .batch (nx + 1) av) (step_refl hi _) (fun l => Or.inl rfl) rfl (fun _ _ => rfl) ⟨by omega, by omega⟩
      (by rw [hcp]; simp only [CPc.low]; omega) (by rw [hcp]; simp [CPc.pos]) hsn hpw
  · cases hs

theorem inv_throw {c : Nat} {s' : St V} (hs : step sync k G s (.throw c) = some s') : Inv sync k G s' := by
  simp only [step] at hs
  split at hs
  · next nx av hcp =>
    have hc : c ∈ G := mem_G hi (by rw [hcp]; nofun)
    have hok := hi.cok c
    have hsn := hi.seen c hc
    have hpw := hi.procW c hc
    rw [hcp] at hok hsn hpw
    obtain ⟨o1, o2⟩ := hok
    cases hs
    have hst := Mem.store_step hi.good (procT c) (seqV c) nx
    exact inv_proc hG hi hc (pc := .wait (nx + 1)) hst (fun l => store_msgs _ _ _ l (by simp only [CPc.low]; omega) (by rw [hcp]; exact o2))
      rfl (fun _ _ => rfl) (by simp only [CPc.Ok]; omega) (by rw [hcp]; simp only [CPc.low]; omega) (by rw [hcp]; simp [CPc.pos])
      (fun y hy => hsn y (by simp only [CPc.seen] at hy ⊢; omega))
      (fun hsy y hy hcur => Nat.le_trans (hpw hsy y (by simp only [CPc.seen] at hy ⊢; omega) hcur) ((hst.grow _).w _))
  · cases hs

theorem inv_read (hk : k ≤ 30) {c : Nat} {s' : St V} (hs : step sync k G s (.read c) = some s') : Inv sync k G s' := by
  simp only [step] at hs
  split at hs
  · next nx av hcp =>
    have hc : c ∈ G := mem_G hi (by rw [hcp]; nofun)
    have hok := hi.cok c
    have hsn := hi.seen c hc
    have hcap := hi.cap c hc
    rw [hcp] at hok hsn hcap
    obtain ⟨o1, o2⟩ := hok
    obtain ⟨n1, n2⟩ := hsn nx o2
    split at hs
    · next v mem hr =>
      cases hs
      obtain ⟨hst, h1, h2, h3, h4, h5⟩ := Mem.read_step hi.good hr
      have hrd : ∀ t z, (t ≠ procT c ∨ z ≠ slotIdx k nx) → mem.reads (slotO z) t = s.mem.reads (slotO z) t := by
        intro t z h
        rw [h4]
        by_cases e : z = slotIdx k nx
        · subst e
          rcases h with h | h
          · simp [h]
          · exact absurd rfl h
        · rw [upd_other _ _ (fun h => e (slotO_inj h))]
      have hm : Mono sync k G s { s with mem := mem, log := upd s.log c ((nx, v) :: s.log c) } := by
        refine ⟨Int.le_refl _, fun _ _ => Int.le_refl _, fun _ _ => Int.le_refl _, fun d _ z hz => ?_,
          fun y _ _ _ => by simp only [h2], fun y h _ => h⟩
        dsimp only
        rw [hrd]
        · by_cases e : d = c
          · subst e
            refine Or.inr (fun e => ?_)
            rw [hcp] at hz
            exact hz nx (by simp only [CPc.low]; omega) (by simp only [CPc.pos]; omega) e.symm
          · exact Or.inl (fun h => e (proc_inj h))
      exact {
        good := hst.good
        lo := hi.lo
        hi := hi.hi
        cmsgs := fun g hg => hi.cmsgs g (by rw [← h1]; exact hg)
        clast := by dsimp only; rw [h1]; exact hi.clast
        cap := hi.cap
        ownR := hi.ownR
        seen := hi.seen
        cok := hi.cok
        out := fun d hd => ⟨(hi.out d hd).1, fun z => by
          have e : d ≠ c := fun e => hd (e ▸ hc)
          dsimp only
          rw [hrd _ _ (Or.inl (fun h => e (proc_inj h)))]
          exact (hi.out d hd).2 z⟩
        preads := fun p z => by
          dsimp only
          rw [hrd _ _ (Or.inl (prod_ne_proc p c))]
          exact hi.preads p z
        creads := fun d z => by
          by_cases e : d = c ∧ z = slotIdx k nx
          · obtain ⟨rfl, rfl⟩ := e
            dsimp only
            rw [h5, h4]
            simp
          · dsimp only
            rw [hrd]
            · exact Nat.le_trans (hi.creads d z) ((hst.grow _).r _ _)
            · by_cases e1 : d = c
              · exact Or.inr (fun e2 => e ⟨e1, e2⟩)
              · exact Or.inl (fun h => e1 (proc_inj h))
        procW := fun d hd => W.mono hi hm hd (hi.procW d hd) (Int.le_refl _) (hst.grow _) (Int.le_refl _)
        cacheM := fun g hg => Kn.mono hG hi hm (hi.cacheM g (by rw [← h1]; exact hg)) (View.Le.refl _) (Int.le_refl _)
        seqM := fun d hd g hg => KnW.mono hi hm hd (hi.seqM d hd g (by rw [← h1]; exact hg)) (View.Le.refl _) (Int.le_refl _)
        flagM := fun j g hg => FMsg.mono hm (hi.flagM j g (by rw [← h1]; exact hg))
        own := fun x r hx => by
          obtain ⟨⟨q, h1, h6⟩, h7⟩ := hi.own x r hx
          exact ⟨⟨q, h1, fun c hc => (h6 c hc).mono hm hc (hst.grow _) (Int.le_refl _)⟩, fun hs => by
            simp only [h2]; exact Nat.le_trans (h7 hs) ((hst.grow _).w _)⟩
        pok := hi.pok
        pinv := fun r => PInv.mono hG hi hm (hi.pinv r) (hst.grow _)
        nonempty := fun z => by simp only [h2]; exact hi.nonempty z
        valR := hi.valR
        valTop := fun x v h6 h7 => by simp only [h2]; exact hi.valTop x v h6 h7
        logs := fun d x w h => by
          by_cases e : d = c
          · subst e
            simp only [upd_same, List.mem_cons, Prod.mk.injEq] at h
            rcases h with ⟨rfl, rfl⟩ | h
            · refine ⟨n1, n2, fun v' hv' => ?_⟩
              have := hi.valTop x v' (by simp only [CPc.low] at hcap; omega) hv'
              rw [h3] at this
              exact Option.some.inj this
            · exact hi.logs d x w h
          · simp only [upd_other _ _ e] at h
            exact hi.logs d x w h }
    · cases hs
  · cases hs

theorem inv_step (hk : k ≤ 30) {a : Act V} {s' : St V} (hs : step sync k G s a = some s') (hlim : s'.cur < 2 ^ 31) : Inv sync k G s' := by
  cases a with
  | call p b n =>
    simp only [step] at hs
    split at hs
    · next h => cases hs; exact inv_pc hG hi h.2 trivial
    · cases hs
  | pstep p i => exact inv_pstep hG hi hk hs hlim
  | casFail p i =>
    simp only [step] at hs
    split at hs
    · next b n cur hpp =>
      have hok := hi.pok p
      rw [hpp] at hok
      split at hs
      · next q mem hl =>
        cases hs
        obtain ⟨hst, h1, h2, h3, _⟩ := Mem.load_step hi.good hl
        exact inv_prod hG hi hst (fun l => Or.inl (by rw [h1])) h2 h3 hok trivial
      · cases hs
    · cases hs
  | write p x v =>
    simp only [step] at hs
    split at hs
    · next h => cases hs; exact inv_write hG hi hk h
    · cases hs
  | publish p x =>
    simp only [step] at hs
    split at hs
    · next h => cases hs; exact inv_publish hG hi h
    · cases hs
  | look c i => exact inv_look hG hi hs
  | flag c i => exact inv_flag hG hi hk hs
  | advance c => exact inv_advance hG hi hs
  | read c => exact inv_read hG hi hk hs
  | finish c => exact inv_finish hG hi hs
  | throw c => exact inv_throw hG hi hs

end

theorem Reach.inv {sync : Bool} {k : Nat} (hk : k ≤ 30) {G : List Nat} (hG : G ≠ []) {s : St V} (h : Reach sync k G s) : Inv sync k G s := by
  induction h with
  | init => exact Inv.init sync k G
  | step a _ hs hlim ih => exact inv_step hG ih hk hs hlim

theorem run_reach {sync : Bool} {k : Nat} {G : List Nat} {s s' : St V} {as : List (Act V)} (h : Reach sync k G s)
    (hr : run sync k G s as = some s') : Reach sync k G s' := by
  induction as generalizing s with
  | nil => cases hr; exact h
  | cons a as ih =>
    simp only [run] at hr
    split at hr
    · cases hr
    · next s3 hs =>
      split at hr
      · next hlim => exact ih (h.step a hs hlim) hr
      · cases hr

end Verif.RaMulti
