import Verif.Spec.ElDispatch
import Verif.Lemmas.SafeEmitter
import Verif.Lemmas.MultiEmitter
import Verif.Lemmas.Subscriber
import Verif.Props.SingleEmitter
import Verif.Props.EventLoop

/-! Lemmas for C79: the three emitters as one registry, and the invariant. -/

namespace Verif.ElD
open Verif

variable {D F : Type}

/-- A registered listener of an emitter. -/
structure Lst where
  id : Nat
  lname : String
  sub : String
  once : Bool
  cb : Nat

/-- The emitter has these listeners, in the order of registration. -/
def Rep : Em → List Lst → Prop
  | .safe s, l => ∃ c, SafeEE.R s ⟨c, l.map fun x => ⟨x.id, x.sub, x.once, x.cb⟩⟩
  | .multi s, l => (∃ c, MultiEE.Inv s ⟨c, l.map fun x => ⟨x.id, x.lname, x.sub, x.cb⟩⟩) ∧ ∀ x ∈ l, x.once = false
  | .single s, l => SingleEE.Inv s (l.head?.map fun x => (x.sub, x.cb)) ∧ l.length ≤ 1 ∧ ∀ x ∈ l, x.once = false ∧ x.id = 0

theorem Rep.make (k : Kind) : Rep (Em.make k) [] := by
  cases k
  · exact ⟨0, SafeEE.R.init⟩
  · exact ⟨⟨0, MultiEE.Inv.init⟩, by simp⟩
  · exact ⟨⟨fun _ => rfl, by simp⟩, by simp, by simp⟩

theorem Rep.nodup {m : Em} {l : List Lst} (h : Rep m l) : (l.map Lst.id).Nodup := by
  cases m with
  | safe s => obtain ⟨c, h⟩ := h; simpa [Function.comp_def] using h.nodup
  | multi s => obtain ⟨⟨c, h⟩, _⟩ := h; simpa [Function.comp_def] using h.nodup
  | single s =>
    obtain ⟨_, h, _⟩ := h
    match l, h with
    | [], _ => simp
    | [x], _ => simp

/-- `on`. -/
theorem Rep.on {m : Em} {l : List Lst} (h : Rep m l) (hr : m.room) (c : Bool) {ln : String} (hn : ∀ x ∈ l, x.once = false → x.lname ≠ ln) (sub : String) (cb : Nat) :
    Rep (m.on c ln sub cb).1 (l ++ [⟨(m.on c ln sub cb).2, ln, sub, false, cb⟩]) := by
  cases m with
  | safe s =>
    obtain ⟨n, h⟩ := h
    have hc : n + 1 < 2 ^ 32 := by have h1 : s.last = n := h.last; have h2 : s.last + 1 < 2 ^ 32 := hr; omega
    have := h.add hc sub false cb
    refine ⟨n + 1, ?_⟩
    simp only [List.map_append, List.map_cons, List.map_nil]
    have e : (SafeEE.on s sub cb).2 = n + 1 := this.1
    simp only [Em.on, e]
    exact this.2
  | multi s =>
    obtain ⟨⟨n, h⟩, ho⟩ := h
    have := h.apply (.on c ln sub cb : MultiEE.Op String Nat Unit)
    have hf : (l.map fun x => (⟨x.id, x.lname, x.sub, x.cb⟩ : MultiSpec.Entry String Nat)).find? (fun x => x.lname = ln) = none := by
      rw [List.find?_eq_none]
      intro x hx
      obtain ⟨y, hy, rfl⟩ := List.mem_map.mp hx
      simp only [decide_eq_true_eq]
      intro e
      exact hn y hy (ho y hy) e
    simp only [MultiSpec.apply, hf, MultiEE.apply] at this
    obtain ⟨h1, h2⟩ := this
    injection h1 with h1
    refine ⟨⟨n + 1, ?_⟩, ?_⟩
    · simp only [List.map_append, List.map_cons, List.map_nil, Em.on, h1]
      exact h2
    · intro x hx
      rcases List.mem_append.mp hx with hx | hx
      · exact ho x hx
      · simp only [List.mem_singleton] at hx; subst hx; rfl
  | single s =>
    obtain ⟨h, h1, h2⟩ := h
    have hr : s.registered = false := hr
    have hl : l = [] := by
      match l, h1, h with
      | [], _, _ => rfl
      | [x], _, h => have := (h.some x.sub x.cb rfl).1; rw [hr] at this; cases this
    subst hl
    have := h.apply (.on c sub cb : SingleEE.Op String Nat Unit)
    simp only [SingleEE.apply, SingleEE.specApply, List.head?_nil, Option.map_none] at this
    obtain ⟨e1, e2⟩ := this
    injection e1 with e1
    refine ⟨?_, by simp, ?_⟩
    · simpa using e2
    · intro x hx
      simp only [List.nil_append, List.mem_singleton] at hx
      subst hx
      exact ⟨rfl, e1⟩

/-- `once`. -/
theorem Rep.addOnce {m m' : Em} {l : List Lst} (h : Rep m l) (hr : m.room) {sub : String} {cb : Nat} (ho : m.once sub cb = some m') :
    ∃ id, Rep m' (l ++ [⟨id, "", sub, true, cb⟩]) := by
  cases m with
  | safe s =>
    obtain ⟨n, h⟩ := h
    have hc : n + 1 < 2 ^ 32 := by have h1 : s.last = n := h.last; have h2 : s.last + 1 < 2 ^ 32 := hr; omega
    have := h.add hc sub true cb
    simp only [Em.once, Option.some.injEq] at ho
    subst ho
    refine ⟨n + 1, n + 1, ?_⟩
    simp only [List.map_append, List.map_cons, List.map_nil]
    exact this.2
  | multi s => cases ho
  | single s => cases ho

/-- `removeListener` of a registered id. -/
theorem Rep.remove {m : Em} {l : List Lst} (h : Rep m l) (c : Bool) {x : Lst} (hx : x ∈ l) :
    ∃ m', m.remove c x.id = some m' ∧ Rep m' (l.filter fun y => decide (y.id ≠ x.id)) := by
  cases m with
  | safe s =>
    obtain ⟨n, h⟩ := h
    have := h.apply (.remove x.id : SafeEE.Op String Nat Unit) (.inr ⟨nofun, nofun⟩)
    have hm : x.id ∈ SafeEE.ids s.listeners := (h.mem_ids x.id).mpr ⟨_, List.mem_map_of_mem hx, rfl⟩
    have e := SafeEE.removeListener_eq s x.id h.ids_nodup
    rw [if_pos hm] at e
    refine ⟨.safe { s with listeners := s.listeners.filter (fun p => decide (p.2.id ≠ x.id)) }, by simp only [Em.remove, e]; rfl, n, ?_⟩
    have := h.filter (fun y => decide (y.id ≠ x.id))
    simp only [SafeEE.toEntry, List.filter_map] at this
    exact this
  | multi s =>
    obtain ⟨⟨n, h⟩, ho⟩ := h
    have := (h.apply (.remove c x.id : MultiEE.Op String Nat Unit)).2
    refine ⟨_, rfl, ⟨n, ?_⟩, fun y hy => ho y (List.mem_filter.mp hy).1⟩
    simp only [MultiEE.apply, MultiSpec.apply, List.filter_map] at this
    exact this
  | single s =>
    obtain ⟨h, h1, h2⟩ := h
    have e0 := (h2 x hx).2
    have hl : (l.filter fun y => decide (y.id ≠ x.id)) = [] := by
      rw [List.filter_eq_nil_iff]
      intro y hy
      simp [(h2 y hy).2, e0]
    rw [hl, e0]
    have := (h.apply (.remove c 0 : SingleEE.Op String Nat Unit)).2
    simp only [SingleEE.apply, SingleEE.specApply] at this
    exact ⟨_, rfl, by simpa using this, by simp, by simp⟩

/-- Which listeners are called. -/
theorem Rep.handlers {m : Em} {l : List Lst} (h : Rep m l) (sub : String) :
    m.handlers sub = (l.filter fun x => decide (x.sub = sub)).map fun x => ⟨x.id, x.cb, x.once⟩ := by
  cases m with
  | safe s =>
    obtain ⟨n, h⟩ := h
    simp only [Em.handlers]
    rw [h.handlers_eq]
    have := h.filt sub
    simp only [List.filter_map] at this
    have := congrArg (List.map fun x : EmitterSpec.Entry String Nat => (⟨x.id, x.cb, x.isOnce⟩ : Handler)) this
    simp only [List.map_map] at this ⊢
    exact this
  | multi s =>
    obtain ⟨⟨n, h⟩, ho⟩ := h
    simp only [Em.handlers]
    rw [h.subs sub]
    simp only [List.filter_map, List.map_map, List.filterMap_map]
    rw [show ((fun x : MultiSpec.Entry String Nat => decide (x.sub = sub)) ∘ fun x : Lst => (⟨x.id, x.lname, x.sub, x.cb⟩ : MultiSpec.Entry String Nat)) =
      fun x => decide (x.sub = sub) from rfl, ← List.filterMap_eq_map]
    apply List.filterMap_congr
    intro x hx
    have hx := (List.mem_filter.mp hx).1
    have := h.fns _ (List.mem_map_of_mem hx)
    simp only [Function.comp, this, ho x hx]
  | single s =>
    obtain ⟨h, h1, h2⟩ := h
    have := (h.apply (.emit sub () : SingleEE.Op String Nat Unit)).1
    simp only [SingleEE.apply, SingleEE.specApply] at this
    injection this with this
    simp only [Em.handlers, this]
    match l, h1, h2 with
    | [], _, _ => simp
    | [x], _, h2 =>
      have := h2 x (by simp)
      by_cases e : x.sub = sub <;> simp [e, this.1, this.2]


/-! ### The registry part of the invariant -/

theorem external_inj {m n : String} (h : EvLoop.external m = EvLoop.external n) : m = n := by
  have := congrArg String.toList h
  simp only [EvLoop.external, String.toList_append] at this
  exact String.ext (List.append_cancel_right this)

theorem lookup_same {β : Type} (n : String) (v : β) (l : List (String × β)) : ((n, v) :: l).lookup n = some v := by simp [List.lookup]

theorem lookup_ne {β : Type} {m n : String} (h : m ≠ n) (v : β) (l : List (String × β)) : ((n, v) :: l).lookup m = l.lookup m := by
  have : (m == n) = false := by simpa using h
  simp [List.lookup, this]

/-- The listener as the specification sees it. -/
def ent (x : Lst) : Ent := ⟨x.cb, if x.once then .once else .named x.lname⟩

/-- `_listenersMap` has the ids of the named listeners. -/
def MapOk (m : String → Option Nat) (l : List Lst) : Prop :=
  (∀ x ∈ l, x.once = false → m x.lname = some x.id) ∧ ∀ n id, m n = some id → ∃ x ∈ l, x.once = false ∧ x.lname = n ∧ x.id = id

def Obj.topic : Obj → String
  | .sub o => o.topic
  | .exec n _ _ => n

def ObjOk (subs : List (String × Nat)) (sched : Option String) (live : String → List Ent) (l : List Lst) (i : Nat) (o : Obj) : Prop :=
  subs.lookup o.topic = some i ∧ match o with
  | .sub o => Rep o.em l ∧ live o.topic = l.map ent ∧ (∀ x ∈ l, x.sub = o.topic) ∧ MapOk o.map l ∧ sched ≠ some o.topic
  | .exec n _ no => live n = [⟨no, .exec⟩] ∧ sched = some n

structure Regs (s : St D F) (count : Nat) (live : String → List Ent) (ls : Nat → List Lst) : Prop where
  cnt : count = s.count
  dead : s.dead = []
  obj : ∀ i o, s.objs[i]? = some o → ObjOk s.subs s.sched live (ls i) i o
  look : ∀ n i, s.subs.lookup n = some i → ∃ o, s.objs[i]? = some o ∧ o.topic = n
  nil : ∀ n, s.subs.lookup n = none → live n = []
  sch : ∀ n, s.sched = some n → n ∉ s.pubs ∧ ∃ i id no, s.subs.lookup n = some i ∧ s.objs[i]? = some (.exec n id no)
  ext : ∃ L, Rep s.ext L ∧ (∀ x ∈ L, ∃ n, x.lname = EvLoop.external n ∧ x.sub = EvLoop.external n ∧ x.once = false) ∧
    ∀ n, (L.filter fun x => decide (x.sub = EvLoop.external n)).map Lst.cb = (s.subs.lookup n).toList
  nos : ∀ n, (∀ e ∈ live n, e.no < count) ∧ ((live n).map Ent.no).Nodup

theorem Regs.init (kind : Kind) : Regs (St.init kind : St D F) 0 (fun _ => []) (fun _ => []) where
  cnt := rfl
  dead := rfl
  obj := by simp [St.init]
  look := by simp [St.init]
  nil := fun _ _ => rfl
  sch := by simp [St.init]
  ext := ⟨[], Rep.make kind, by simp, by simp [St.init]⟩
  nos := by simp

/-- The state of a registry depends on these parts only. -/
theorem Regs.congr {s s' : St D F} {n : Nat} {live : String → List Ent} {ls : Nat → List Lst} (h : Regs s n live ls) (h1 : s'.count = s.count)
    (h2 : s'.dead = s.dead) (h3 : s'.objs = s.objs) (h4 : s'.subs = s.subs) (h5 : s'.sched = s.sched) (h6 : s'.ext = s.ext) (h7 : s'.pubs = s.pubs) :
    Regs s' n live ls where
  cnt := h1 ▸ h.cnt
  dead := h2 ▸ h.dead
  obj := by rw [h3, h4, h5]; exact h.obj
  look := by rw [h3, h4]; exact h.look
  nil := by rw [h4]; exact h.nil
  sch := by rw [h3, h4, h5, h7]; exact h.sch
  ext := by rw [h4, h6]; exact h.ext
  nos := h.nos

/-- A subscriber of the map for a topic. -/
theorem Regs.of_lookup {s : St D F} {c : Nat} {live : String → List Ent} {ls : Nat → List Lst} (h : Regs s c live ls) {n : String} {i : Nat}
    (hl : s.subs.lookup n = some i) : ∃ o, s.objs[i]? = some o ∧ o.topic = n ∧ ObjOk s.subs s.sched live (ls i) i o := by
  obtain ⟨o, h1, h2⟩ := h.look n i hl
  exact ⟨o, h1, h2, h.obj i o h1⟩

theorem getElem?_append_new {α : Type} {l : List α} {x y : α} {i : Nat} (h : (l ++ [x])[i]? = some y) : l[i]? = some y ∨ (i = l.length ∧ y = x) := by
  by_cases hi : i < l.length
  · rw [List.getElem?_append_left hi] at h; exact .inl h
  · rw [List.getElem?_append_right (by omega)] at h
    have : i - l.length = 0 := by
      by_contra hne
      rw [List.getElem?_eq_none (by simp; omega)] at h
      cases h
    rw [this] at h
    simp at h
    exact .inr ⟨by omega, h.symm⟩

theorem lt_of_getElem? {α : Type} {l : List α} {y : α} {i : Nat} (h : l[i]? = some y) : i < l.length := (List.getElem?_eq_some_iff.mp h).1

/-- A new object of a new topic. -/
theorem Regs.new {s s' : St D F} {count : Nat} {live live' : String → List Ent} {ls : Nat → List Lst} (h : Regs s count live ls) {c : Bool} {n : String} {o : Obj}
    (hl : s.subs.lookup n = none) (hr : s.ext.room) (e1 : s'.ext = (extOn c s n).1) (e2 : s'.objs = s.objs ++ [o]) (e3 : s'.subs = (n, s.objs.length) :: s.subs)
    (e4 : s'.dead = s.dead) (ho : o.topic = n) {count' : Nat} (e5 : count' = s'.count) (hc : count ≤ count')
    (hlive : ∀ m, m ≠ n → live' m = live m) (hn : (∀ e ∈ live' n, e.no < count') ∧ ((live' n).map Ent.no).Nodup)
    (hsched : ∀ m, m ≠ n → (s'.sched = some m ↔ s.sched = some m)) (hpubs : s'.pubs = s.pubs)
    (hnew : ObjOk s'.subs s'.sched live' [] s.objs.length o)
    (hsn : s'.sched = some n → n ∉ s.pubs ∧ ∃ id no, o = .exec n id no) :
    Regs s' count' live' (upd ls s.objs.length []) where
  cnt := e5
  dead := by rw [e4]; exact h.dead
  obj := by
    intro i o' ho'
    rw [e2] at ho'
    rcases getElem?_append_new ho' with h1 | ⟨rfl, rfl⟩
    · have hi := lt_of_getElem? h1
      rw [upd_other _ _ (by omega)]
      have h2 := h.obj i o' h1
      have hne : o'.topic ≠ n := by intro e; rw [← e, h2.1] at hl; cases hl
      refine ⟨by rw [e3, lookup_ne hne]; exact h2.1, ?_⟩
      cases o' with
      | sub o' =>
        obtain ⟨_, a1, a2, a3, a4, a5⟩ := h2
        exact ⟨a1, by rw [← a2]; exact hlive _ hne, a3, a4, fun e => a5 ((hsched _ hne).mp e)⟩
      | exec m id no =>
        obtain ⟨_, a1, a2⟩ := h2
        exact ⟨by rw [← a1]; exact hlive _ hne, (hsched _ hne).mpr a2⟩
    · rw [upd_same]; exact hnew
  look := by
    intro m i hm
    rw [e3] at hm
    rw [e2]
    by_cases hmn : m = n
    · subst hmn
      rw [lookup_same] at hm
      cases hm
      exact ⟨o, by simp, ho⟩
    · rw [lookup_ne hmn] at hm
      obtain ⟨o', h1, h2⟩ := h.look m i hm
      exact ⟨o', by rw [List.getElem?_append_left (lt_of_getElem? h1)]; exact h1, h2⟩
  nil := by
    intro m hm
    rw [e3] at hm
    by_cases hmn : m = n
    · subst hmn; rw [lookup_same] at hm; cases hm
    · rw [lookup_ne hmn] at hm
      rw [hlive m hmn]; exact h.nil m hm
  sch := by
    intro m hm
    rw [hpubs]
    by_cases hmn : m = n
    · subst hmn
      obtain ⟨h1, id, no, rfl⟩ := hsn hm
      exact ⟨h1, s.objs.length, id, no, by rw [e3, lookup_same], by rw [e2]; simp⟩
    · obtain ⟨h1, i, id, no, h2, h3⟩ := h.sch m ((hsched m hmn).mp hm)
      exact ⟨h1, i, id, no, by rw [e3, lookup_ne hmn]; exact h2, by rw [e2, List.getElem?_append_left (lt_of_getElem? h3)]; exact h3⟩
  ext := by
    obtain ⟨L, h1, h2, h3⟩ := h.ext
    have hno : ∀ x ∈ L, x.sub ≠ EvLoop.external n := by
      intro x hx e
      have := h3 n
      rw [hl] at this
      simp only [Option.toList_none, List.map_eq_nil_iff, List.filter_eq_nil_iff, decide_eq_true_eq] at this
      exact this x hx e
    have hrep := h1.on hr c (ln := EvLoop.external n) (by
      intro x hx _ e
      obtain ⟨m, g1, g2, _⟩ := h2 x hx
      rw [g1] at e
      exact hno x hx (by rw [g2, e])) (EvLoop.external n) s.objs.length
    refine ⟨_, by rw [e1]; exact hrep, ?_, ?_⟩
    · intro x hx
      rcases List.mem_append.mp hx with hx | hx
      · exact h2 x hx
      · simp only [List.mem_singleton] at hx; subst hx; exact ⟨n, rfl, rfl, rfl⟩
    · intro m
      rw [List.filter_append, List.map_append, h3 m, e3]
      by_cases hmn : m = n
      · subst hmn
        rw [lookup_same, hl]
        simp
      · rw [lookup_ne hmn]
        have : EvLoop.external n ≠ EvLoop.external m := fun e => hmn (external_inj e).symm
        simp [this]
  nos := by
    intro m
    by_cases hmn : m = n
    · subst hmn; exact hn
    · rw [hlive m hmn]
      exact ⟨fun e he => Nat.lt_of_lt_of_le ((h.nos m).1 e he) hc, (h.nos m).2⟩

/-- A change of the listeners of one subscriber. -/
theorem Regs.modify {s s' : St D F} {count : Nat} {live : String → List Ent} {ls : Nat → List Lst} (h : Regs s count live ls) {i : Nat} {o o' : Sub}
    (ho : s.objs[i]? = some (.sub o)) (e1 : s'.objs = s.objs.set i (.sub o')) (ht : o'.topic = o.topic) (e2 : s'.dead = s.dead) (e3 : s'.subs = s.subs)
    (e4 : s'.sched = s.sched) (e5 : s'.pubs = s.pubs) (e6 : s'.ext = s.ext) {count' : Nat} (e7 : count' = s'.count) (hc : count ≤ count')
    {l' : List Lst} (hrep : Rep o'.em l') (hsub : ∀ x ∈ l', x.sub = o.topic) (hmap : MapOk o'.map l') {new : List Ent} (hnew : new = l'.map ent)
    (hn : (∀ e ∈ new, e.no < count') ∧ (new.map Ent.no).Nodup) :
    Regs s' count' (upd live o.topic new) (upd ls i l') := by
  have hi := lt_of_getElem? ho
  have hob := h.obj i _ ho
  have hset : ∀ j, j ≠ i → s'.objs[j]? = s.objs[j]? := by
    intro j hj; rw [e1, List.getElem?_set_ne (by omega)]
  have hsame : s'.objs[i]? = some (.sub o') := by rw [e1, List.getElem?_set_self hi]
  constructor
  · exact e7
  · rw [e2]; exact h.dead
  · intro j oj hj
    by_cases hji : j = i
    · subst hji
      rw [hsame] at hj; cases hj
      rw [upd_same, e3, e4]
      refine ⟨by simpa [Obj.topic, ht] using hob.1, ?_⟩
      simp only [ht, upd_same]
      exact ⟨hrep, hnew, hsub, hmap, hob.2.2.2.2.2⟩
    · rw [hset j hji] at hj
      rw [upd_other _ _ hji, e3, e4]
      have hoj := h.obj j oj hj
      have hne : oj.topic ≠ o.topic := by
        intro e
        have h1 := hoj.1
        have h2 := hob.1
        rw [e] at h1
        simp only [Obj.topic] at h2
        rw [h1] at h2
        exact hji (Option.some.inj h2)
      refine ⟨hoj.1, ?_⟩
      cases oj with
      | sub oj => have := hoj.2; simp only [Obj.topic] at hne; simp only [upd_other live _ hne]; exact this
      | exec m id no => have := hoj.2; simp only [Obj.topic] at hne; simp only [upd_other live _ hne]; exact this
  · intro n j hj
    rw [e3] at hj
    obtain ⟨oj, h1, h2⟩ := h.look n j hj
    by_cases hji : j = i
    · subst hji
      rw [ho] at h1; cases h1
      exact ⟨_, hsame, by simpa [Obj.topic, ht] using h2⟩
    · exact ⟨oj, by rw [hset j hji]; exact h1, h2⟩
  · intro n hn'
    rw [e3] at hn'
    have : n ≠ o.topic := by
      rintro rfl
      have := hob.1
      simp only [Obj.topic] at this
      rw [hn'] at this; cases this
    rw [upd_other _ _ this]; exact h.nil n hn'
  · intro n hn'
    rw [e4] at hn'
    obtain ⟨h1, j, id, no, h2, h3⟩ := h.sch n hn'
    refine ⟨by rw [e5]; exact h1, j, id, no, by rw [e3]; exact h2, ?_⟩
    have : j ≠ i := by rintro rfl; rw [ho] at h3; cases h3
    rw [hset j this]; exact h3
  · rw [e3, e6]; exact h.ext
  · intro n
    by_cases e : n = o.topic
    · subst e; rw [upd_same]; exact hn
    · rw [upd_other _ _ e]
      exact ⟨fun x hx => Nat.lt_of_lt_of_le ((h.nos n).1 x hx) hc, (h.nos n).2⟩

/-- The listeners to be called for an event of a topic are the registered ones. -/
theorem Regs.targets {s : St D F} {count : Nat} {live : String → List Ent} {ls : Nat → List Lst} (h : Regs s count live ls) (n : String) :
    (s.subs.lookup n = none ∧ ElD.targets s n = [] ∧ live n = [] ∧ ∀ m, fits s n m = true) ∨
    (∃ i o, s.subs.lookup n = some i ∧ s.objs[i]? = some (.sub o) ∧ o.topic = n ∧ live n = (ls i).map ent ∧
      ElD.targets s n = (ls i).map (fun x => (i, ⟨x.id, x.cb, x.once⟩)) ∧ ∀ d, fits s n (some (.ev d)) = true) ∨
    ∃ i id no, s.subs.lookup n = some i ∧ s.objs[i]? = some (.exec n id no) ∧ live n = [⟨no, .exec⟩] ∧ ElD.targets s n = [(i, ⟨0, no, false⟩)] ∧
      s.sched = some n ∧ ∀ f, fits s n (some (.fn f)) = true := by
  obtain ⟨L, h1, h2, h3⟩ := h.ext
  have hh : (s.ext.handlers (EvLoop.external n)).map (·.cb) = (s.subs.lookup n).toList := by
    rw [h1.handlers, List.map_map, ← h3 n]; rfl
  cases hl : s.subs.lookup n with
  | none =>
    rw [hl] at hh
    have hh : s.ext.handlers (EvLoop.external n) = [] := by simpa using hh
    exact .inl ⟨rfl, by simp [ElD.targets, hh], h.nil n hl, fun m => by simp [fits, hh]⟩
  | some i =>
    rw [hl] at hh
    obtain ⟨o, ho, ht, hok⟩ := h.of_lookup hl
    simp only [Option.toList_some] at hh
    obtain ⟨h0, hh0, hcb⟩ : ∃ h0, s.ext.handlers (EvLoop.external n) = [h0] ∧ h0.cb = i := by
      match s.ext.handlers (EvLoop.external n), hh with
      | [x], hh => exact ⟨x, rfl, by simpa using hh⟩
      | [], hh => cases hh
      | _ :: _ :: _, hh => simp at hh
    cases o with
    | sub o =>
      simp only [Obj.topic] at ht
      obtain ⟨_, a1, a2, a3, a4, a5⟩ := hok
      refine .inr (.inl ⟨i, o, rfl, ho, ht, by rw [← ht]; exact a2, ?_, fun d => by simp [fits, hh0, hcb, ho]⟩)
      simp only [ElD.targets, hh0, List.flatMap_cons, List.flatMap_nil, hcb, ho, Option.map_some, Option.getD_some, Obj.targets, a1.handlers, List.append_nil,
        List.map_map]
      rw [List.filter_eq_self.mpr (fun x hx => by simp [a3 x hx])]
      rfl
    | exec m id no =>
      simp only [Obj.topic] at ht
      subst ht
      obtain ⟨_, a1, a2⟩ := hok
      exact .inr (.inr ⟨i, id, no, rfl, ho, a1, by simp [ElD.targets, hh0, hcb, ho, Obj.targets], a2, fun d => by simp [fits, hh0, hcb, ho]⟩)

end Verif.ElD
