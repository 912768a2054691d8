import Verif.Lemmas.ObjectPool
import Verif.Model.SyncNet

/-! Simulation of networks of synchronous providers by the specification (C73). -/

namespace Verif.SyncNet

open Verif.Pool

variable {T : Type}

def takeP (c : Cfg T) (s : Pub T) : Cmd T → Pub T × Nat
  | .publish e => s.publish c e
  | .process f => s.process c f

theorem take_eq (net : Net T) (s : St T) (n : Nat) (c : Cmd T) :
    s.take net n c = ({ s with pub := upd s.pub n (takeP (net.cfg n) (s.pub n) c).1 }, (takeP (net.cfg n) (s.pub n) c).2) := by
  cases c <;> rfl

/-- Everything about taking an event object. -/
structure Taken (c : Cfg T) (s s' : Pub T) (o : Nat) (v : T) : Prop where
  inv : PubInv c s'
  new : o ∉ s.live
  live : s'.live = o :: s.live
  keep : ∀ x ∈ s.live, s'.content x = s.content x
  val : s'.content o = v
  stack : (stackOf s = o :: stackOf s' ∧ o < c.poolSize ∧ s'.allocs = s.allocs) ∨
    (stackOf s = [] ∧ stackOf s' = [] ∧ c.poolSize ≤ o ∧ s'.allocs = s.allocs + 1)

theorem taken_fresh {c : Cfg T} {s : Pub T} (h : PubInv c s) (v : T) (hs : stackOf s = []) :
    Taken c s (s.fresh v).1 (s.fresh v).2 v where
  inv := pubInv_fresh v h
  new := fun hm => Nat.lt_irrefl _ (h.lt _ hm)
  live := rfl
  keep x hx := upd_other _ _ (Nat.ne_of_lt (h.lt _ hx))
  val := upd_same _ _ _
  stack := Or.inr ⟨hs, hs, h.next, rfl⟩

theorem taken_pool {c : Cfg T} {s : Pub T} (h : PubInv c s) {p : Pool} {o : Nat} {r : List Nat} (hp : s.pool = some p)
    (hst : p.stack = o :: r) (v : T) :
    Taken c s { s with pool := some { p with stack := r }, content := upd s.content o v, live := o :: s.live } o v := by
  obtain ⟨h1, h2, h3⟩ := h.pool p hp
  rw [hst] at h3
  have hlt : o < c.poolSize := by
    have : o ∈ List.range (min c.poolSize 65535) := h3.mem_iff.mp (by simp)
    simp at this; omega
  have hnd := h3.nodup_iff.mpr List.nodup_range
  have hno : o ∉ s.live := by
    intro hm
    have : o ∈ s.live.filter (· < c.poolSize) := by simp [hm, hlt]
    simp only [List.cons_append, List.nodup_cons, List.mem_append, not_or] at hnd
    exact hnd.1.2 this
  exact {
    inv := pubInv_take _ h hp hst
    new := hno
    live := rfl
    keep := fun x hx => upd_other _ _ (fun e => hno (e ▸ hx))
    val := upd_same _ _ _
    stack := Or.inl ⟨by simp [stackOf, hp, hst], hlt, rfl⟩ }

theorem taken_fail {c : Cfg T} {s : Pub T} (h : PubInv c s) {p : Pool} (hp : s.pool = some p) (hst : p.stack = []) (v : T) (k : Nat) :
    Taken c s (Pub.fresh { s with pool := some { p with stack := [], fails := k } } v).1
      (Pub.fresh { s with pool := some { p with stack := [], fails := k } } v).2 v := by
  have hi : PubInv c { s with pool := some { p with stack := [], fails := k } } := pubInv_fail h hp hst k
  have := taken_fresh hi v (by simp [stackOf])
  exact { this with
    stack := by
      rcases this.stack with h' | h'
      · left
        refine ⟨?_, h'.2⟩
        rw [← h'.1]
        simp [stackOf, hp, hst]
      · right
        refine ⟨?_, h'.2⟩
        rw [← h'.1]
        simp [stackOf, hp, hst] }

theorem taken {c : Cfg T} (hc : ∀ cl, c.cloner = some cl → ∀ e old, cl e old = e) {s : Pub T} (h : PubInv c s) (cmd : Cmd T)
    (hw : cmd.Whole c) : Taken c s (takeP c s cmd).1 (takeP c s cmd).2 (cmd.val c) := by
  have hcl : ∀ e d, c.clone e d = e := by
    intro e d
    unfold Cfg.clone
    cases hcc : c.cloner with
    | none => rfl
    | some cl => exact hc cl hcc e d
  cases cmd with
  | publish e =>
    simp only [takeP, Pub.publish, Cmd.val]
    cases hp : s.pool with
    | none =>
      have hs0 : stackOf s = [] := by simp [stackOf, hp]
      cases hcc : c.cloner with
      | none => exact taken_fresh h e hs0
      | some cl =>
        have := taken_fresh h (cl e (c.initFun c.dflt)) hs0
        rw [hc cl hcc] at this
        simpa [hc cl hcc] using this
    | some p =>
      cases hst : p.stack with
      | nil =>
        simp only [Pool.acquire, hst, hcl]
        exact taken_fail h hp hst e _
      | cons o r =>
        simp only [Pool.acquire, hst, hcl]
        exact taken_pool h hp hst e
  | process f =>
    simp only [takeP, Pub.process, Cmd.val]
    have hw' : ∀ old, f (c.initFun old) = f (c.initFun c.dflt) := hw
    cases hp : s.pool with
    | none => exact taken_fresh h _ (by simp [stackOf, hp])
    | some p =>
      cases hst : p.stack with
      | nil =>
        simp only [Pool.acquire, hst]
        exact taken_fail h hp hst _ _
      | cons o r =>
        simp only [Pool.acquire, hst, hw']
        exact taken_pool h hp hst _

theorem drop_inv {c : Cfg T} {s : Pub T} (h : PubInv c s) {o : Nat} (ho : o ∈ s.live) : PubInv c (s.drop c o) :=
  pubInv_step (op := .drop o) (r := none) h (by simp [Pub.step, ho])

theorem drop_stack {c : Cfg T} {s : Pub T} (h : PubInv c s) {o : Nat} (ho : o ∈ s.live) :
    stackOf (s.drop c o) = if o < c.poolSize then o :: stackOf s else stackOf s := by
  unfold Pub.drop stackOf
  by_cases hlt : o < c.poolSize
  · simp only [hlt, if_true]
    cases hp : s.pool with
    | none => have := h.none.mp hp; omega
    | some p =>
      obtain ⟨h1, h2, h3⟩ := h.pool p hp
      have hm : o ∈ s.live.filter (· < c.poolSize) := by simp [ho, hlt]
      have hlen : p.stack.length < p.cap := by
        have e1 := h3.length_eq
        have e2 := List.length_pos_of_mem hm
        simp only [List.length_append, List.length_range] at e1
        omega
      simp [Pool.release, h2, hlen]
  · simp only [hlt, if_false]

/-- `R`: the events of the publications that are running. -/
structure Inv (net : Net T) (R : List (Nat × Nat)) (s : St T) : Prop where
  pub : ∀ n, PubInv (net.cfg n) (s.pub n)
  own : ∀ n o, o ∈ (s.pub n).live ↔ (n, o) ∈ R ∨ ∃ v, (n, o, v) ∈ s.held
  held : ∀ n o v, (n, o, v) ∈ s.held → (s.pub n).content o = v

theorem Inv.start (net : Net T) : Inv net [] (St.init net) where
  pub n := pubInv_init _
  own n o := by simp [St.init, Pub.init]
  held := by simp [St.init]

/-- What one part of a run does. -/
structure Rel (net : Net T) (F : Nat → Nat) (s : St T) (es : List (Ev T)) (s' : St T) : Prop where
  log : s'.log = s.log ++ calls es
  keep : ∀ n o, o ∈ (s.pub n).live → (s'.pub n).content o = (s.pub n).content o
  held : ∃ x, s'.held = x ++ s.held
  back : NoKeeper net → (∀ n, stackOf (s'.pub n) = stackOf (s.pub n)) ∧ (∀ n, (s'.pub n).live = (s.pub n).live) ∧ s'.held = s.held ∧
    ∀ m, (s'.pub m).allocs = (s.pub m).allocs + tooDeep m (F m) es

theorem calls_append (a b : List (Ev T)) : calls (a ++ b) = calls a ++ calls b := List.filterMap_append

theorem tooDeep_append (m f : Nat) (a b : List (Ev T)) : tooDeep m f (a ++ b) = tooDeep m f a + tooDeep m f b := List.countP_append

theorem Rel.refl (net : Net T) (F : Nat → Nat) (s : St T) : Rel net F s [] s where
  log := by simp [calls]
  keep _ _ _ := rfl
  held := ⟨[], rfl⟩
  back _ := ⟨fun _ => rfl, fun _ => rfl, rfl, fun _ => rfl⟩

theorem live_mono {net : Net T} {R : List (Nat × Nat)} {s s' : St T} (h : Inv net R s) (h' : Inv net R s')
    (hh : ∃ x, s'.held = x ++ s.held) {n o : Nat} (ho : o ∈ (s.pub n).live) : o ∈ (s'.pub n).live := by
  obtain ⟨x, hx⟩ := hh
  rw [h'.own]
  rcases (h.own n o).mp ho with hr | ⟨v, hv⟩
  · exact Or.inl hr
  · exact Or.inr ⟨v, by rw [hx]; exact List.mem_append_right _ hv⟩

theorem Rel.trans {net : Net T} {F : Nat → Nat} {R : List (Nat × Nat)} {s s' s'' : St T} {a b : List (Ev T)} (hi : Inv net R s)
    (hi' : Inv net R s') (h1 : Rel net F s a s') (h2 : Rel net F s' b s'') : Rel net F s (a ++ b) s'' where
  log := by rw [h2.log, h1.log, calls_append, List.append_assoc]
  keep n o ho := by rw [h2.keep n o (live_mono hi hi' h1.held ho), h1.keep n o ho]
  held := by
    obtain ⟨x, hx⟩ := h1.held
    obtain ⟨y, hy⟩ := h2.held
    exact ⟨y ++ x, by rw [hy, hx, List.append_assoc]⟩
  back hk := by
    obtain ⟨a1, a2, a3, a4⟩ := h1.back hk
    obtain ⟨b1, b2, b3, b4⟩ := h2.back hk
    exact ⟨fun n => by rw [b1, a1], fun n => by rw [b2, a2], by rw [b3, a3],
      fun m => by rw [b4, a4, tooDeep_append, Nat.add_assoc]⟩

/-- The free objects are those left by the publications that are running. -/
def Free (net : Net T) (F : Nat → Nat) (under : List Nat) (s : St T) : Prop :=
  NoKeeper net → ∀ n, (stackOf (s.pub n)).length = F n - under.count n

/-- The two results agree. -/
def Sim (net : Net T) (F : Nat → Nat) (R : List (Nat × Nat)) (s : St T) : Option (St T × Bool) → Option (List (Ev T) × Bool) → Prop
  | none, none => True
  | some (s', b), some (es, b') => b = b' ∧ Inv net R s' ∧ Rel net F s es s'
  | _, _ => False

theorem Rel.free {net : Net T} {F : Nat → Nat} {under : List Nat} {s s' : St T} {es : List (Ev T)} (h : Rel net F s es s')
    (hf : Free net F under s) : Free net F under s' := fun hk n => by rw [(h.back hk).1 n]; exact hf hk n

theorem sim_inOrder {net : Net T} {F : Nat → Nat} {R : List (Nat × Nat)} {under : List Nat} {α β : Type} (P : St T → Prop)
    (hP : ∀ s s' es, Inv net R s → P s → Rel net F s es s' → P s')
    (f : St T → α → Option (St T × Bool)) (g : β → Option (List (Ev T) × Bool)) (h : α → β) (as : List α)
    (hfg : ∀ s, Inv net R s → Free net F under s → P s → ∀ a ∈ as, Sim net F R s (f s a) (g (h a))) (s : St T)
    (hi : Inv net R s) (hf : Free net F under s) (hp : P s) : Sim net F R s (inOrderS f s as) (inOrder g (as.map h)) := by
  induction as generalizing s with
  | nil => exact ⟨rfl, hi, Rel.refl _ _ _⟩
  | cons a as ih =>
    simp only [inOrderS, List.map_cons, inOrder]
    have h1 := hfg s hi hf hp a (by simp)
    cases hfa : f s a with
    | none =>
      cases hga : g (h a) with
      | none => trivial
      | some r => rw [hfa, hga] at h1; exact h1.elim
    | some r =>
      obtain ⟨s1, b⟩ := r
      cases hga : g (h a) with
      | none => rw [hfa, hga] at h1; exact h1.elim
      | some q =>
        obtain ⟨es, b'⟩ := q
        rw [hfa, hga] at h1
        obtain ⟨rfl, hi1, hr1⟩ := h1
        cases b with
        | true => exact ⟨rfl, hi1, hr1⟩
        | false =>
          have h2 := ih (fun s hi hf hp a ha => hfg s hi hf hp a (by simp [ha])) s1 hi1 (hr1.free hf) (hP s s1 es hi hp hr1)
          dsimp only
          cases hx : inOrderS f s1 as with
          | none =>
            cases hy : inOrder g (as.map h) with
            | none => trivial
            | some q => rw [hx, hy] at h2; exact h2.elim
          | some q =>
            obtain ⟨s2, b2⟩ := q
            cases hy : inOrder g (as.map h) with
            | none => rw [hx, hy] at h2; exact h2.elim
            | some q =>
              obtain ⟨es2, b2'⟩ := q
              rw [hx, hy] at h2
              obtain ⟨rfl, hi2, hr2⟩ := h2
              exact ⟨rfl, hi2, hr1.trans hi hi1 hr2⟩

theorem sim_callOne {net : Net T} {F : Nat → Nat} {R : List (Nat × Nat)} {n o : Nat} {v : T} {l : Lis T}
    {rec : St T → List (Nat × Cmd T) → Option (St T × Bool)} {y : Option (List (Ev T) × Bool)} {s : St T} (hl : l ∈ net.lis n)
    (hi : Inv net R s) (hR : (n, o) ∈ R) (hv : (s.pub n).content o = v) {under : List Nat} (hf : Free net F under s)
    (hrec : ∀ s, Inv net R s → Free net F under s → Sim net F R s (rec s (l.react v)) y) :
    Sim net F R s (callOne rec n o s l) (y.map (fun r => (.call n l.name v :: r.1, r.2 || l.fails v))) := by
  unfold callOne
  rw [hv]
  have hi1 : Inv net R { s with log := s.log ++ [(n, l.name, v)], held := if l.keeps v then (n, o, v) :: s.held else s.held } := by
    refine ⟨hi.pub, ?_, ?_⟩
    · intro n' o'
      rw [show (s.pub n').live = (s.pub n').live from rfl]
      dsimp only
      rw [hi.own n' o']
      by_cases hk : l.keeps v = true
      · simp only [hk, if_true, List.mem_cons]
        constructor
        · rintro (h | ⟨w, h⟩)
          · exact Or.inl h
          · exact Or.inr ⟨w, Or.inr h⟩
        · rintro (h | ⟨w, h | h⟩)
          · exact Or.inl h
          · simp only [Prod.mk.injEq] at h
            obtain ⟨rfl, rfl, rfl⟩ := h
            exact Or.inl hR
          · exact Or.inr ⟨w, h⟩
      · simp only [hk]
        exact Iff.rfl
    · intro n' o' w hw
      dsimp only at hw ⊢
      by_cases hk : l.keeps v = true
      · simp only [hk, if_true, List.mem_cons] at hw
        rcases hw with h | h
        · simp only [Prod.mk.injEq] at h
          obtain ⟨rfl, rfl, rfl⟩ := h
          exact hv
        · exact hi.held _ _ _ h
      · simp only [hk] at hw
        exact hi.held _ _ _ hw
  have h1 := hrec _ hi1 hf
  dsimp only
  generalize hz : rec { s with log := s.log ++ [(n, l.name, v)], held := if l.keeps v then (n, o, v) :: s.held else s.held } (l.react v) = z at *
  cases z with
  | none =>
    cases y with
    | none => trivial
    | some q => exact h1.elim
  | some q =>
    obtain ⟨s2, b⟩ := q
    cases y with
    | none => exact h1.elim
    | some q =>
      obtain ⟨es, b'⟩ := q
      obtain ⟨rfl, hi2, hr⟩ := h1
      refine ⟨rfl, hi2, ?_⟩
      refine { log := ?_, keep := hr.keep, held := ?_, back := ?_ }
      · rw [hr.log]
        simp [calls]
      · obtain ⟨x, hx⟩ := hr.held
        by_cases hk : l.keeps v = true
        · exact ⟨x ++ [(n, o, v)], by rw [hx]; simp [hk]⟩
        · exact ⟨x, by rw [hx]; simp [hk]⟩
      · intro hk
        obtain ⟨a, b, c, d⟩ := hr.back hk
        refine ⟨a, b, ?_, ?_⟩
        · rw [c]; simp [hk n l hl v]
        · intro m
          rw [d m]
          simp [tooDeep]

theorem sim_publishOne {net : Net T} {F : Nat → Nat} {R : List (Nat × Nat)} (hw : net.Whole)
    {rec : St T → List (Nat × Cmd T) → Option (St T × Bool)} {g : SLis T → T → Option (List (Ev T) × Bool)} {s : St T}
    {under : List Nat} {n : Nat} {c : Cmd T} (hc : c.Whole (net.cfg n)) (hi : Inv net R s) (hf : Free net F under s)
    (hrec : ∀ o, ∀ l ∈ net.lis n, ∀ s, Inv net ((n, o) :: R) s → Free net F (n :: under) s →
      Sim net F ((n, o) :: R) s (rec s (l.react (c.val (net.cfg n)))) (g (l.spec net) (c.val (net.cfg n)))) :
    Sim net F R s (publishOne net rec s (n, c))
      ((inOrder (fun l => (g l (c.val (net.cfg n))).map (fun r =>
          (.call n l.name (c.val (net.cfg n)) :: r.1, r.2 || l.fails (c.val (net.cfg n))))) (net.spec n)).map
        (fun r => (.pub n (c.val (net.cfg n)) under :: r.1, r.2))) := by
  unfold publishOne
  dsimp only
  rw [take_eq]
  dsimp only
  have ht := taken (hw.cloner n) (hi.pub n) c hc
  generalize takeP (net.cfg n) (s.pub n) c = r at ht ⊢
  obtain ⟨p1, o⟩ := r
  dsimp only at ht ⊢
  generalize hvd : c.val (net.cfg n) = v at *
  have hi1 : Inv net ((n, o) :: R) { s with pub := upd s.pub n p1 } := by
    refine ⟨?_, ?_, ?_⟩
    · intro n'
      by_cases e : n' = n
      · subst e; simpa using ht.inv
      · simpa [e] using hi.pub n'
    · intro n' o'
      by_cases e : n' = n
      · subst e
        simp only [upd_same, ht.live, List.mem_cons, hi.own, Prod.mk.injEq, true_and]
        constructor
        · rintro (h | h | h)
          · exact Or.inl (Or.inl h)
          · exact Or.inl (Or.inr h)
          · exact Or.inr h
        · rintro ((h | h) | h)
          · exact Or.inl h
          · exact Or.inr (Or.inl h)
          · exact Or.inr (Or.inr h)
      · simp only [upd_other _ _ e, hi.own, List.mem_cons, Prod.mk.injEq, e, false_and, false_or]
    · intro n' o' w hh
      by_cases e : n' = n
      · subst e
        simp only [upd_same]
        rw [ht.keep o' ((hi.own _ _).mpr (Or.inr ⟨w, hh⟩))]
        exact hi.held _ _ _ hh
      · simp only [upd_other _ _ e]
        exact hi.held _ _ _ hh
  have hlen : (stackOf p1).length = (stackOf (s.pub n)).length - 1 := by
    rcases ht.stack with h | h
    · rw [h.1]; simp
    · rw [h.1, h.2.1]
      rfl
  have hf1 : Free net F (n :: under) { s with pub := upd s.pub n p1 } := by
    intro hk m
    by_cases e : m = n
    · subst e
      have := hf hk m
      simp only [upd_same, List.count_cons_self]
      omega
    · have := hf hk m
      simp only [upd_other _ _ e]
      rw [List.count_cons_of_ne (fun x => e x.symm)]
      exact this
  have h1 := sim_inOrder (net := net) (F := F) (R := (n, o) :: R) (under := n :: under) (fun s => (s.pub n).content o = v)
    (fun s s' es hi hp hr => by rw [hr.keep n o ((hi.own n o).mpr (Or.inl (by simp)))]; exact hp)
    (callOne rec n o) (fun l : SLis T => (g l v).map (fun r : List (Ev T) × Bool => (Ev.call n l.name v :: r.1, r.2 || l.fails v))) (Lis.spec net) (net.lis n)
    (fun s hi hf hp l hl => sim_callOne hl hi (by simp) hp hf (fun s hi hf => hrec o l hl s hi hf))
    { s with pub := upd s.pub n p1 } hi1 hf1 (by simp [ht.val])
  unfold Net.spec
  generalize inOrderS (callOne rec n o) { s with pub := upd s.pub n p1 } (net.lis n) = x at *
  generalize inOrder (fun l => (g l v).map (fun r => (Ev.call n l.name v :: r.1, r.2 || l.fails v))) ((net.lis n).map (Lis.spec net)) = y at *
  cases x with
  | none =>
    cases y with
    | none => trivial
    | some q => exact h1.elim
  | some q =>
    obtain ⟨s2, b⟩ := q
    cases y with
    | none => exact h1.elim
    | some q =>
      obtain ⟨es, b'⟩ := q
      obtain ⟨rfl, hi2, hr⟩ := h1
      have ho2 : o ∈ (s2.pub n).live := (hi2.own n o).mpr (Or.inl (by simp))
      have hnotR : (n, o) ∉ R := fun h => ht.new ((hi.own n o).mpr (Or.inl h))
      have hnoth : ∀ w, (n, o, w) ∉ s.held := fun w h => ht.new ((hi.own n o).mpr (Or.inr ⟨w, h⟩))
      have hkeep2 : ∀ n' o', o' ∈ (s.pub n').live → (s2.pub n').content o' = (s.pub n').content o' := by
        intro n' o' ho'
        have ho'' : o' ∈ (upd s.pub n p1 n').live := by
          by_cases e : n' = n
          · subst e; simp [ht.live, ho']
          · simpa [e] using ho'
        rw [hr.keep n' o' ho'']
        by_cases e : n' = n
        · subst e; simpa using ht.keep o' ho'
        · simp [e]
      have hlog : s2.log = s.log ++ calls (Ev.pub n v under :: es) := by
        rw [hr.log]; simp [calls]
      -- the last reference of the publication
      by_cases hany : s2.held.any (fun h => decide (h.1 = n ∧ h.2.1 = o)) = true
      · have hd : s2.done net n o = s2 := by unfold St.done; rw [if_pos hany]
        dsimp only [Option.map_some]
        rw [hd]
        have hex : ∃ w, (n, o, w) ∈ s2.held := by
          obtain ⟨⟨a, b, w⟩, hm, hh⟩ := List.any_eq_true.mp hany
          simp only [decide_eq_true_eq] at hh
          obtain ⟨rfl, rfl⟩ := hh
          exact ⟨w, hm⟩
        refine ⟨rfl, ⟨hi2.pub, ?_, hi2.held⟩, ?_⟩
        · intro n' o'
          rw [hi2.own]
          simp only [List.mem_cons, Prod.mk.injEq]
          constructor
          · rintro ((⟨rfl, rfl⟩ | h) | h)
            · exact Or.inr hex
            · exact Or.inl h
            · exact Or.inr h
          · rintro (h | h)
            · exact Or.inl (Or.inr h)
            · exact Or.inr h
        · refine { log := hlog, keep := hkeep2, held := hr.held, back := ?_ }
          intro hk
          exfalso
          obtain ⟨w, hw'⟩ := hex
          have hheld : s2.held = s.held := (hr.back hk).2.2.1
          rw [hheld] at hw'
          exact hnoth w hw'
      · have hd : s2.done net n o = { s2 with pub := upd s2.pub n ((s2.pub n).drop (net.cfg n) o) } := by
          unfold St.done; rw [if_neg hany]
        dsimp only [Option.map_some]
        rw [hd]
        have hno2 : ∀ w, (n, o, w) ∉ s2.held := by
          intro w hm
          exact hany (List.any_eq_true.mpr ⟨_, hm, by simp⟩)
        refine ⟨rfl, ⟨?_, ?_, ?_⟩, ?_⟩
        · intro n'
          by_cases e : n' = n
          · subst e; simpa using drop_inv (hi2.pub n') ho2
          · simpa [e] using hi2.pub n'
        · intro n' o'
          by_cases e : n' = n
          · subst e
            simp only [upd_same, Pub.drop]
            rw [(hi2.pub n').nodup.mem_erase_iff, hi2.own]
            simp only [List.mem_cons, Prod.mk.injEq, true_and]
            constructor
            · rintro ⟨hne, (h | h) | h⟩
              · exact absurd h hne
              · exact Or.inl h
              · exact Or.inr h
            · rintro (h | h)
              · exact ⟨fun x => hnotR (x ▸ h), Or.inl (Or.inr h)⟩
              · refine ⟨fun x => ?_, Or.inr h⟩
                obtain ⟨w, hw'⟩ := h
                exact hno2 w (x ▸ hw')
          · simp only [upd_other _ _ e, hi2.own, List.mem_cons, Prod.mk.injEq, e, false_and, false_or]
        · intro n' o' w hh
          by_cases e : n' = n
          · subst e
            simp only [upd_same, Pub.drop]
            exact hi2.held _ _ _ hh
          · simp only [upd_other _ _ e]
            exact hi2.held _ _ _ hh
        · refine { log := hlog, keep := ?_, held := hr.held, back := ?_ }
          · intro n' o' ho'
            rw [← hkeep2 n' o' ho']
            by_cases e : n' = n
            · subst e; simp [Pub.drop]
            · simp [e]
          · intro hk
            obtain ⟨b1, b2, b3, b4⟩ := hr.back hk
            refine ⟨?_, ?_, b3, ?_⟩
            · intro n'
              by_cases e : n' = n
              · subst e
                have h1 := b1 n'
                simp only [upd_same] at h1 ⊢
                rw [drop_stack (hi2.pub n') ho2, h1]
                rcases ht.stack with h | h
                · rw [if_pos h.2.1, h.1]
                · rw [if_neg (by omega), h.1, h.2.1]
              · have h1 := b1 n'
                simp only [upd_other _ _ e] at h1 ⊢
                exact h1
            · intro n'
              by_cases e : n' = n
              · subst e
                have h1 := b2 n'
                simp only [upd_same, Pub.drop] at h1 ⊢
                rw [h1, ht.live]
                simp
              · have h1 := b2 n'
                simp only [upd_other _ _ e] at h1 ⊢
                exact h1
            · intro m
              have h1 := b4 m
              have hcons : tooDeep m (F m) (Ev.pub n v under :: es) =
                  tooDeep m (F m) es + (if n = m ∧ F m ≤ under.count m then 1 else 0) := by
                simp only [tooDeep, List.countP_cons, decide_eq_true_eq]
              rw [hcons]
              by_cases e : m = n
              · subst e
                simp only [upd_same, Pub.drop] at h1 ⊢
                have hfm := hf hk m
                rcases ht.stack with h | h
                · rw [h.1] at hfm
                  simp only [List.length_cons] at hfm
                  rw [h1, h.2.2, if_neg (by omega)]
                  rfl
                · rw [h.1] at hfm
                  simp only [List.length_nil] at hfm
                  rw [h1, h.2.2.2, if_pos ⟨trivial, by omega⟩]
                  omega
              · simp only [upd_other _ _ e] at h1 ⊢
                rw [h1, if_neg (fun x => e x.1.symm)]
                rfl

theorem sim_exec {net : Net T} (hw : net.Whole) (F : Nat → Nat) (k : Nat) : ∀ (R : List (Nat × Nat)) (under : List Nat) (s : St T)
    (ps : List (Nat × Cmd T)), (∀ p ∈ ps, p.2.Whole (net.cfg p.1)) → Inv net R s → Free net F under s →
    Sim net F R s (exec net k s ps) (trace net.spec k under (ps.map (fun p => (p.1, p.2.val (net.cfg p.1))))) := by
  induction k with
  | zero =>
    intro R under s ps hps hi hf
    cases ps with
    | nil => exact ⟨rfl, hi, Rel.refl _ _ _⟩
    | cons p ps => trivial
  | succ k ih =>
    intro R under s ps hps hi hf
    refine sim_inOrder (under := under) (fun _ => True) (fun _ _ _ _ _ _ => trivial) (publishOne net (exec net k)) _
      (fun p => (p.1, p.2.val (net.cfg p.1))) ps ?_ s hi hf trivial
    intro s hi hf _ p hp
    obtain ⟨n, c⟩ := p
    refine sim_publishOne (g := fun l v => trace net.spec k (n :: under) (l.out v)) hw (hps _ hp) hi hf ?_
    intro o l hl s hi hf
    exact ih _ _ s _ (fun p hp => hw.react n l hl _ p hp) hi hf

end Verif.SyncNet
