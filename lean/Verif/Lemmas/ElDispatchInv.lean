import Verif.Lemmas.ElDispatch

/-! The invariant of the dispatch of an event loop (C79). -/

namespace Verif.ElD
open Verif

variable {D F : Type}

/-- A listener to be called, concretely and in the specification. -/
def TE (objs : List Obj) (ls : Nat → List Lst) (n : String) (msg : Msg D F) (t : Nat × Handler) (e : Ent) : Prop :=
  t.2.cb = e.no ∧ suits e.kind msg = true ∧ (t.2.once = true ↔ e.kind = .once) ∧
    (t.2.once = true → (∃ o, objs[t.1]? = some (.sub o) ∧ o.topic = n) ∧ ∃ x ∈ ls t.1, x.id = t.2.id ∧ x.cb = t.2.cb ∧ x.once = true)

def Cur (objs : List Obj) (ls : Nat → List Lst) : Option (Deliv (Msg D F)) → Option (String × Msg D F × List Ent) → Prop
  | none, none => True
  | some d, some (n, msg, ents) => d.msg = some msg ∧ (d.todo.map (·.2.cb)).Nodup ∧ List.Forall₂ (TE objs ls n msg) d.todo ents
  | _, _ => False

/-- The event may be on that topic. -/
def Wt (s : St D F) (t : String) : Msg D F → Prop
  | .ev _ => t ∈ s.pubs
  | .fn _ => s.sched = some t

structure Inv (k : Nat) (s : St D F) (a : Abs (Msg D F)) (ls : Nat → List Lst) : Prop where
  regs : Regs s a.count a.live ls
  cur : Cur s.objs ls s.del a.cur
  hd : s.del.isSome = true ↔ ∃ nx av, s.loop.ring.cp 0 = .handle nx av
  loop : EvLoop.Reach k (fun _ _ => True) s.loop
  acc : ∀ p t d x, (p, t, d, x) ∈ s.loop.accepted → Wt s t d
  cl : ∀ p t d, s.loop.pc p = .claiming t d → Wt s t d

theorem Inv.init (k : Nat) (kind : Kind) : Inv k (St.init kind : St D F) .init (fun _ => []) where
  regs := Regs.init kind
  cur := trivial
  hd := by simp [St.init, EvLoop.St.init, MRing.St.init]
  loop := .init
  acc := by simp [St.init, EvLoop.St.init]
  cl := by simp [St.init, EvLoop.St.init]

theorem Cur.mono {objs objs' : List Obj} {ls ls' : Nat → List Lst} {d : Option (Deliv (Msg D F))} {c : Option (String × Msg D F × List Ent)} (h : Cur objs ls d c)
    (h1 : ∀ (i : Nat) (o : Sub), objs[i]? = some (Obj.sub o) → ∃ o' : Sub, objs'[i]? = some (Obj.sub o') ∧ o'.topic = o.topic)
    (h2 : ∀ dv, d = some dv → ∀ t ∈ dv.todo, t.2.once = true → ∀ x ∈ ls t.1, x.cb = t.2.cb → x.once = true → x ∈ ls' t.1) : Cur objs' ls' d c := by
  match d, c, h with
  | none, none, _ => trivial
  | some d, some (n, msg, ents), ⟨a1, a2, a3⟩ =>
    refine ⟨a1, a2, ?_⟩
    have h2 := h2 d rfl
    revert h2 a3
    generalize d.todo = todo
    clear a1 a2
    intro a3 h2
    induction a3 with
    | nil => exact .nil
    | @cons t e ts es hte _ ih =>
      refine .cons ?_ (ih fun t' ht' => h2 t' (List.mem_cons_of_mem _ ht'))
      obtain ⟨b1, b2, b3, b4⟩ := hte
      refine ⟨b1, b2, b3, fun ho => ?_⟩
      obtain ⟨⟨o, c1, c2⟩, x, x1, x2, x3, x4⟩ := b4 ho
      obtain ⟨o', d1, d2⟩ := h1 _ o c1
      exact ⟨⟨o', d1, by rw [d2]; exact c2⟩, x, h2 t List.mem_cons_self ho x x1 x3 x4, x2, x3, x4⟩

/-- A new object. -/
theorem Cur.new {objs : List Obj} {ls : Nat → List Lst} {d : Option (Deliv (Msg D F))} {c : Option (String × Msg D F × List Ent)} (h : Cur objs ls d c) (o : Obj) (l : List Lst) :
    Cur (objs ++ [o]) (upd ls objs.length l) d c := by
  match d, c, h with
  | none, none, _ => trivial
  | some d, some (n, msg, ents), ⟨a1, a2, a3⟩ =>
    refine ⟨a1, a2, a3.imp fun t e hte => ?_⟩
    obtain ⟨b1, b2, b3, b4⟩ := hte
    refine ⟨b1, b2, b3, fun ho => ?_⟩
    obtain ⟨⟨o, c1, c2⟩, x, x1, x2⟩ := b4 ho
    have hlt := lt_of_getElem? c1
    exact ⟨⟨o, by rw [List.getElem?_append_left hlt]; exact c1, c2⟩, x, by rw [upd_other _ _ (by omega)]; exact x1, x2⟩

theorem Abs.run_append [DecidableEq D] [DecidableEq F] (a : Abs (Msg D F)) (h h' : List (Ev (Msg D F))) : a.run (h ++ h') = (a.run h).bind (·.run h') := by
  induction h generalizing a with
  | nil => rfl
  | cons e h ih =>
    simp only [List.cons_append, Abs.run]
    cases a.next e with
    | none => rfl
    | some a' => exact ih a'

/-! ### The loop -/

/-- Steps of publishers, of the loop between deliveries, start and stop. -/
theorem loop_other {k : Nat} {l l' : EvLoop.St (Msg D F)} {a : EvLoop.Act (Msg D F)} (hr : EvLoop.Reach k (fun _ _ => True) l) (hs : EvLoop.step k l a = some l')
    (h1 : a ≠ .finish) (h2 : a ≠ .throw) (h3 : a ≠ .advance) :
    ((∃ nx av, l'.ring.cp 0 = .handle nx av) ↔ ∃ nx av, l.ring.cp 0 = .handle nx av) ∧ EvLoop.allEmitted l' = EvLoop.allEmitted l := by
  cases EvLoop.step_eff hr.pcInv hs <;> (rename l' = _ => h'; subst h')
  case finish => exact absurd rfl h1
  case throw => exact absurd rfl h2
  case event => exact absurd rfl h3
  case batchEnd => exact absurd rfl h3
  case scan nx hi i pc' hc hp => 
    refine ⟨?_, rfl⟩
    rcases hp with rfl | ⟨av, rfl⟩ <;> simp [hc]
  all_goals first
    | exact ⟨Iff.rfl, rfl⟩
    | (refine ⟨?_, rfl⟩; simp [*])

/-- What publishers add. -/
theorem loop_wt {k : Nat} {s : St D F} {l' : EvLoop.St (Msg D F)} {a : EvLoop.Act (Msg D F)} (hr : EvLoop.Reach k (fun _ _ => True) s.loop)
    (hs : EvLoop.step k s.loop a = some l') (hm : mayPublish s a = true) (h1 : ∀ p t d x, (p, t, d, x) ∈ s.loop.accepted → Wt s t d)
    (h2 : ∀ p t d, s.loop.pc p = .claiming t d → Wt s t d) :
    (∀ p t d x, (p, t, d, x) ∈ l'.accepted → Wt s t d) ∧ ∀ p t d, l'.pc p = .claiming t d → Wt s t d := by
  cases EvLoop.step_eff hr.pcInv hs <;> (rename l' = _ => h'; subst h')
  case call p t d hp =>
    refine ⟨h1, fun q t' d' hq => ?_⟩
    simp only [upd_apply] at hq
    split at hq
    · cases hq
      cases d with
      | ev d => simpa [mayPublish, Wt] using hm
      | fn f => simpa [mayPublish, Wt] using hm
    · exact h2 q t' d' hq
  case got p t d hp _ =>
    refine ⟨fun q t' d' x hx => ?_, fun q t' d' hq => ?_⟩
    · rcases List.mem_cons.mp hx with e | hx
      · cases e; exact h2 p _ _ hp
      · exact h1 q t' d' x hx
    · simp only [upd_apply] at hq
      split at hq
      · cases hq
      · exact h2 q t' d' hq
  all_goals first
    | exact ⟨h1, h2⟩
    | (refine ⟨h1, fun q t' d' hq => ?_⟩
       simp only [upd_apply] at hq
       split at hq
       · cases hq
       · exact h2 q t' d' hq)

/-- The beginning of a delivery or the end of a batch. -/
theorem loop_advance {k : Nat} (hk : k ≤ 30) {l l' : EvLoop.St (Msg D F)} (hr : EvLoop.Reach k (fun _ _ => True) l) (hs : EvLoop.step k l .advance = some l') :
    ((¬ ∃ nx av, l.ring.cp 0 = .handle nx av) ∧ newEmission l l' = none ∧ (¬ ∃ nx av, l'.ring.cp 0 = .handle nx av) ∧ EvLoop.allEmitted l' = EvLoop.allEmitted l) ∨
    ∃ e m, (¬ ∃ nx av, l.ring.cp 0 = .handle nx av) ∧ newEmission l l' = some e ∧ e.data = some m ∧ (∃ nx av, l'.ring.cp 0 = .handle nx av) ∧
      (∃ p x, (p, e.topic, m, x) ∈ l.accepted) ∧ EvLoop.allEmitted l' = EvLoop.allEmitted l ++ [e] := by
  have hr' : EvLoop.Reach k (fun _ _ => True) l' := hr.step (a := .advance) trivial trivial hs
  have he := EvLoop.step_eff hr.pcInv hs
  cases he with
  | event nx av h2 h3 h' =>
    have hg : 0 ∈ l'.ring.gating := by
      by_contra hg
      have := (EvLoop.never_started hr' hg).2.2.2.2.1
      rw [h'] at this
      simp at this
    have hem := (hr'.lInv hk).em hg (EvLoop.readSlot k l nx) (by rw [h']; exact List.mem_cons_self)
    obtain ⟨p, t, d, h4, h5⟩ := hem
    refine .inr ⟨EvLoop.readSlot k l nx, d, ?_, ?_, ?_, ?_, ⟨p, (EvLoop.readSlot k l nx).seq, ?_⟩, ?_⟩
    · rintro ⟨a, b, e⟩; rw [h2] at e; cases e
    · rw [h']; simp [newEmission]
    · rw [h5]
    · exact ⟨nx, av, by rw [h']; simp⟩
    · rw [h'] at h4
      have h6 : (EvLoop.readSlot k l nx).topic = t := by rw [h5]
      rw [h6]; exact h4
    · rw [h']; simp [EvLoop.allEmitted]
  | batchEnd nx av h2 h3 h' =>
    subst h'
    exact .inl ⟨by simp [h2], by simp [newEmission], by simp, rfl⟩

theorem loop_finish {k : Nat} {l l' : EvLoop.St (Msg D F)} (hr : EvLoop.Reach k (fun _ _ => True) l) (hs : EvLoop.step k l .finish = some l') :
    (¬ ∃ nx av, l'.ring.cp 0 = .handle nx av) ∧ l'.accepted = l.accepted ∧ l'.pc = l.pc ∧ EvLoop.allEmitted l' = EvLoop.allEmitted l := by
  cases EvLoop.step_eff hr.pcInv hs with
  | finish nx av h2 h' => subst h'; exact ⟨by simp, rfl, rfl, rfl⟩

theorem loop_throw {k : Nat} {l l' : EvLoop.St (Msg D F)} (hr : EvLoop.Reach k (fun _ _ => True) l) (hs : EvLoop.step k l .throw = some l') :
    (¬ ∃ nx av, l'.ring.cp 0 = .handle nx av) ∧ l'.accepted = l.accepted ∧ l'.pc = l.pc ∧ EvLoop.allEmitted l' = EvLoop.allEmitted l := by
  cases EvLoop.step_eff hr.pcInv hs with
  | throw nx av h2 h' => subst h'; exact ⟨by simp, rfl, rfl, rfl⟩

/-! ### Preservation -/

variable [DecidableEq D] [DecidableEq F]

/-- What a step adds to the history is allowed, and the invariant holds again. -/
def Good (k : Nat) (s s' : St D F) (a : Abs (Msg D F)) : Prop :=
  ∃ evs a' ls', s'.hist = s.hist ++ evs ∧ a.run evs = some a' ∧ Inv k s' a' ls'

theorem nos_append {l : List Ent} {c : Nat} (h : (∀ e ∈ l, e.no < c) ∧ (l.map Ent.no).Nodup) (kd : K) :
    (∀ e ∈ l ++ [(⟨c, kd⟩ : Ent)], e.no < c + 1) ∧ ((l ++ [(⟨c, kd⟩ : Ent)]).map Ent.no).Nodup := by
  refine ⟨fun e he => ?_, ?_⟩
  · rcases List.mem_append.mp he with he | he
    · have := h.1 e he; omega
    · simp only [List.mem_singleton] at he; subst he; exact Nat.lt_succ_self _
  · rw [List.map_append, List.nodup_append]
    refine ⟨h.2, by simp, ?_⟩
    intro x hx y hy
    obtain ⟨e, he, rfl⟩ := List.mem_map.mp hx
    simp only [List.map_cons, List.map_nil, List.mem_singleton] at hy
    have := h.1 e he
    omega

theorem Inv.getPublisher {k : Nat} {c : Bool} {s s' : St D F} {a : Abs (Msg D F)} {ls : Nat → List Lst} (hi : Inv k s a ls) {n : String}
    (hok : s.sched ≠ some n) (hs : step k c s (.getPublisher n) = some s') : Good k s s' a := by
  simp only [step, if_neg hok, Option.some.injEq] at hs
  subst hs
  refine ⟨[], a, ls, by simp, rfl, ?_⟩
  have hr := hi.regs
  have hwt : ∀ t d, Wt s t d → Wt { s with pubs := n :: s.pubs } t d := by
    intro t d h
    cases d with
    | ev d => exact List.mem_cons_of_mem _ h
    | fn f => exact h
  exact ⟨⟨hr.cnt, hr.dead, hr.obj, hr.look, hr.nil, fun m hm => ⟨by
      simp only [List.mem_cons, not_or]
      exact ⟨fun e => hok (e ▸ hm), (hr.sch m hm).1⟩, (hr.sch m hm).2⟩, hr.ext, hr.nos⟩,
    hi.cur, hi.hd, hi.loop, fun p t d x hx => hwt t d (hi.acc p t d x hx), fun p t d hx => hwt t d (hi.cl p t d hx)⟩

theorem Inv.getSubscriber {k : Nat} {c : Bool} {s s' : St D F} {a : Abs (Msg D F)} {ls : Nat → List Lst} (hi : Inv k s a ls) {n : String} {kd : Kind}
    (hok : s.subs.lookup n = none → s.ext.room) (hs : step k c s (.getSubscriber n kd) = some s') : Good k s s' a := by
  simp only [step] at hs
  split at hs
  · cases hs; exact ⟨[], a, ls, by simp, rfl, hi⟩
  · rename_i hl
    split at hs
    · simp only [Option.some.injEq] at hs
      subst hs
      refine ⟨[], a, upd ls s.objs.length [], by simp, rfl, ?_⟩
      have hr := hi.regs
      refine ⟨?_, hi.cur.new _ _, hi.hd, hi.loop, hi.acc, hi.cl⟩
      refine hr.new (s' := { s with ext := (extOn c s n).1, objs := s.objs ++ [.sub ⟨n, Em.make kd, fun _ => none, (extOn c s n).2⟩], subs := (n, s.objs.length) :: s.subs }) (live' := a.live) (n := n) (c := c) (o := .sub ⟨n, Em.make kd, fun _ => none, (extOn c s n).2⟩) hl (hok hl) (Eq.refl _) (Eq.refl _) (Eq.refl _) (Eq.refl _) rfl ?_
        (Nat.le_refl _) (fun _ _ => rfl) ?_ (fun _ _ => Iff.rfl) rfl ?_ ?_
      · exact hr.cnt
      · rw [hr.nil n hl]; simp
      · refine ⟨lookup_same _ _ _, Rep.make kd, hr.nil n hl, by simp, ⟨by simp, by simp⟩, fun e => ?_⟩
        obtain ⟨_, i, _, _, h1, _⟩ := hr.sch n e
        rw [hl] at h1; cases h1
      · intro e
        obtain ⟨_, i, _, _, h1, _⟩ := hr.sch n e
        rw [hl] at h1; cases h1
    · cases hs

theorem Inv.getScheduler {k : Nat} {c : Bool} {s s' : St D F} {a : Abs (Msg D F)} {ls : Nat → List Lst} (hi : Inv k s a ls) {n : String}
    (hok : s.sched = none → schedName n ∉ s.pubs ∧ s.subs.lookup (schedName n) = none ∧ s.ext.room) (hs : step k c s (.getScheduler n) = some s') : Good k s s' a := by
  simp only [step] at hs
  split at hs
  · cases hs; exact ⟨[], a, ls, by simp, rfl, hi⟩
  · rename_i hsn
    split at hs
    · obtain ⟨hp, hl, hroom⟩ := hok hsn
      generalize schedName n = n at hs hp hl
      have hr := hi.regs
      have hsubs : s.subs.filter (fun e => e.1 != n) = s.subs := by
        rw [List.filter_eq_self]
        intro e he
        by_contra hne
        simp only [bne_iff_ne, ne_eq, not_not] at hne
        have : s.subs.lookup n ≠ none := by
          rw [← hne]
          clear hs hl hp hroom
          generalize s.subs = l at he
          induction l with
          | nil => cases he
          | cons y l ih =>
            by_cases h : e.1 = y.1
            · rw [h, show y :: l = (y.1, y.2) :: l from rfl, lookup_same]; nofun
            · rw [show y :: l = (y.1, y.2) :: l from rfl, lookup_ne h]
              rcases List.mem_cons.mp he with rfl | he
              · exact absurd rfl h
              · exact ih he
        exact this hl
      simp only [makeScheduler, hl, if_neg hp, hsubs, List.append_nil, Option.some.injEq] at hs
      subst hs
      refine ⟨[.sched n], _, upd ls s.objs.length [], by simp, rfl, ?_⟩
      refine ⟨?_, hi.cur.new _ _, hi.hd, hi.loop, fun p t d x hx => ?_, fun p t d hx => ?_⟩
      · refine hr.new (s' := { s with ext := (extOn c s n).1, objs := s.objs ++ [.exec n (extOn c s n).2 s.count], count := s.count + 1, sched := some n, hist := s.hist ++ [.sched n], subs := (n, s.objs.length) :: s.subs }) (live' := upd a.live n (a.live n ++ [⟨a.count, .exec⟩])) (n := n) (c := c) (o := .exec n (extOn c s n).2 s.count) hl hroom (Eq.refl _) (Eq.refl _) (Eq.refl _) (Eq.refl _) rfl
          ?_ (Nat.le_succ _) (fun m hm => upd_other _ _ hm) ?_ (fun m hm => ?_) rfl ?_ ?_
        · simp [hr.cnt]
        · rw [upd_same]; exact nos_append (hr.nos n) _
        · rw [hsn]
          simp only [Option.some.injEq, reduceCtorEq, iff_false]
          exact fun e => hm e.symm
        · refine ⟨lookup_same _ _ _, ?_, rfl⟩
          rw [upd_same, hr.nil n hl, hr.cnt]; rfl
        · exact fun _ => ⟨hp, _, _, rfl⟩
      · have := hi.acc p t d x hx
        cases d with
        | ev d => exact this
        | fn f => simp only [Wt, hsn] at this; cases this
      · have := hi.cl p t d hx
        cases d with
        | ev d => exact this
        | fn f => simp only [Wt, hsn] at this; cases this
    · cases hs


/-- Access to a subscriber through a valid pointer. -/
theorem withSub_eq {s : St D F} {a : Abs (Msg D F)} {k : Nat} {ls : Nat → List Lst} (hi : Inv k s a ls) {i : Nat} {f : Sub → Option (St D F)} {o : Sub}
    (ho : s.objs[i]? = some (.sub o)) : withSub s i f = f o := by
  simp only [withSub, ho, hi.regs.dead, List.not_mem_nil, if_false]

/-- The once listeners still to be called stay when other listeners come or go. -/
theorem Cur.set {objs : List Obj} {ls : Nat → List Lst} {d : Option (Deliv (Msg D F))} {c : Option (String × Msg D F × List Ent)} (h : Cur objs ls d c) {i : Nat} {o o' : Sub}
    (ho : objs[i]? = some (.sub o)) (ht : o'.topic = o.topic) {l' : List Lst} (hl : ∀ x ∈ ls i, x.once = true → x ∈ l') :
    Cur (objs.set i (.sub o')) (upd ls i l') d c := by
  refine h.mono (fun j oj hj => ?_) (fun dv _ t _ _ x hx _ hxo => ?_)
  · by_cases e : j = i
    · subst e
      rw [ho] at hj; cases hj
      exact ⟨o', List.getElem?_set_self (lt_of_getElem? ho), ht⟩
    · exact ⟨oj, by rw [List.getElem?_set_ne (Ne.symm e)]; exact hj, rfl⟩
  · by_cases e : t.1 = i
    · rw [e, upd_same]; rw [e] at hx; exact hl x hx hxo
    · rw [upd_other _ _ e]; exact hx

theorem Inv.reg {k : Nat} {c : Bool} {s s' : St D F} {a : Abs (Msg D F)} {ls : Nat → List Lst} (hi : Inv k s a ls) {i : Nat} {l : String} {o : Sub}
    (ho : s.objs[i]? = some (.sub o)) (hl : o.map l = none) (hroom : o.em.room) (hs : step k c s (.reg i l) = some s') : Good k s s' a := by
  simp only [step, withSub_eq hi ho] at hs
  split at hs
  · simp only [Option.some.injEq] at hs
    subst hs
    have hr := hi.regs
    obtain ⟨h0, h1, h2, h3, h4, h5⟩ := hr.obj i _ ho
    have hn : ∀ x ∈ ls i, x.once = false → x.lname ≠ l := by
      intro x hx hxo e
      have := h4.1 x hx hxo
      rw [e, hl] at this; cases this
    refine ⟨[.reg o.topic l], _, upd ls i (ls i ++ [⟨(o.em.on c l o.topic s.count).2, l, o.topic, false, s.count⟩]), rfl, rfl, ?_⟩
    refine ⟨?_, hi.cur.set (o' := { o with em := (o.em.on c l o.topic s.count).1, map := upd o.map l (some (o.em.on c l o.topic s.count).2) }) ho rfl ?_, hi.hd, hi.loop, hi.acc, hi.cl⟩
    rotate_left
    · exact fun x hx _ => List.mem_append_left _ hx
    refine hr.modify (s' := { s with objs := s.objs.set i (.sub { o with em := (o.em.on c l o.topic s.count).1, map := upd o.map l (some (o.em.on c l o.topic s.count).2) }), count := s.count + 1, hist := s.hist ++ [.reg o.topic l] })
      ho rfl rfl rfl rfl rfl rfl rfl ?_ (Nat.le_succ _) (h1.on hroom c hn o.topic s.count) ?_ ?_ ?_ (nos_append (hr.nos _) _)
    · simp [hr.cnt]
    · intro x hx
      rcases List.mem_append.mp hx with hx | hx
      · exact h3 x hx
      · simp only [List.mem_singleton] at hx; subst hx; rfl
    · refine ⟨fun x hx hxo => ?_, fun m id hm => ?_⟩
      · rcases List.mem_append.mp hx with hx | hx
        · exact (upd_other _ _ (hn x hx hxo)).trans (h4.1 x hx hxo)
        · simp only [List.mem_singleton] at hx; subst hx; simp
      · simp only [upd_apply] at hm
        split at hm
        · cases hm
          exact ⟨_, List.mem_append_right _ (List.mem_singleton.mpr rfl), rfl, by simp [*], rfl⟩
        · obtain ⟨x, hx, h6⟩ := h4.2 m id hm
          exact ⟨x, List.mem_append_left _ hx, h6⟩
    · rw [List.map_append, h2]; simp [ent, hr.cnt]
  · cases hs

theorem Inv.once {k : Nat} {c : Bool} {s s' : St D F} {a : Abs (Msg D F)} {ls : Nat → List Lst} (hi : Inv k s a ls) {i : Nat} {o : Sub}
    (ho : s.objs[i]? = some (.sub o)) (hroom : o.em.room) (hs : step k c s (.once i) = some s') : Good k s s' a := by
  simp only [step, withSub_eq hi ho] at hs
  split at hs
  · rename_i em he
    simp only [Option.some.injEq] at hs
    subst hs
    have hr := hi.regs
    obtain ⟨h0, h1, h2, h3, h4, h5⟩ := hr.obj i _ ho
    obtain ⟨id, hrep⟩ := h1.addOnce hroom he
    refine ⟨[.once o.topic], _, upd ls i (ls i ++ [⟨id, "", o.topic, true, s.count⟩]), rfl, rfl, ?_⟩
    refine ⟨?_, hi.cur.set (o' := { o with em := em }) ho rfl ?_, hi.hd, hi.loop, hi.acc, hi.cl⟩
    rotate_left
    · exact fun x hx _ => List.mem_append_left _ hx
    refine hr.modify (s' := { s with objs := s.objs.set i (.sub { o with em := em }), count := s.count + 1, hist := s.hist ++ [.once o.topic] })
      ho rfl rfl rfl rfl rfl rfl rfl ?_ (Nat.le_succ _) hrep ?_ ?_ ?_ (nos_append (hr.nos _) _)
    · simp [hr.cnt]
    · intro x hx
      rcases List.mem_append.mp hx with hx | hx
      · exact h3 x hx
      · simp only [List.mem_singleton] at hx; subst hx; rfl
    · refine ⟨fun x hx hxo => ?_, fun m id hm => ?_⟩
      · rcases List.mem_append.mp hx with hx | hx
        · exact h4.1 x hx hxo
        · simp only [List.mem_singleton] at hx; subst hx; cases hxo
      · obtain ⟨x, hx, h6⟩ := h4.2 m id hm
        exact ⟨x, List.mem_append_left _ hx, h6⟩
    · rw [List.map_append, h2]; simp [ent, hr.cnt]
  · cases hs; exact ⟨[], a, ls, by simp, rfl, hi⟩

theorem id_inj {m : Em} {l : List Lst} (h : Rep m l) {x y : Lst} (hx : x ∈ l) (hy : y ∈ l) (e : x.id = y.id) : x = y :=
  List.inj_on_of_nodup_map h.nodup hx hy e

theorem nos_filter {l : List Ent} {c : Nat} (h : (∀ e ∈ l, e.no < c) ∧ (l.map Ent.no).Nodup) (p : Ent → Bool) :
    (∀ e ∈ l.filter p, e.no < c) ∧ ((l.filter p).map Ent.no).Nodup :=
  ⟨fun e he => h.1 e (List.mem_filter.mp he).1, h.2.sublist ((List.filter_sublist (p := p)).map _)⟩

theorem Inv.rem {k : Nat} {c : Bool} {s s' : St D F} {a : Abs (Msg D F)} {ls : Nat → List Lst} (hi : Inv k s a ls) {i : Nat} {l : String} {o : Sub}
    (ho : s.objs[i]? = some (.sub o)) (hs : step k c s (.rem i l) = some s') : Good k s s' a := by
  simp only [step, withSub_eq hi ho] at hs
  have hr := hi.regs
  obtain ⟨h0, h1, h2, h3, h4, h5⟩ := hr.obj i _ ho
  split at hs
  · split at hs
    · rename_i hl
      simp only [Option.some.injEq] at hs
      subst hs
      have he : (a.live o.topic).filter (fun e => decide (e.kind ≠ .named l)) = a.live o.topic := by
        rw [List.filter_eq_self]
        intro e he
        rw [h2] at he
        obtain ⟨x, hx, rfl⟩ := List.mem_map.mp he
        rw [decide_eq_true_eq]
        simp only [ent]
        intro e'
        split at e'
        · cases e'
        · rename_i hxo
          injection e' with e'
          have := h4.1 x hx (by simpa using hxo)
          rw [e', hl] at this; cases this
      refine ⟨[.rem o.topic l], a, ls, rfl, ?_, ?_⟩
      · simp only [Abs.run, Abs.next, he]
        congr
        funext m
        by_cases e : m = o.topic
        · rw [e, upd_same]
        · rw [upd_other _ _ e]
      · exact ⟨hr.congr rfl rfl rfl rfl rfl rfl rfl, hi.cur, hi.hd, hi.loop, hi.acc, hi.cl⟩
    · rename_i id hl
      obtain ⟨x, hx, hxo, hxl, rfl⟩ := h4.2 l id hl
      obtain ⟨em, he, hrep⟩ := h1.remove c hx
      rw [he] at hs
      simp only [Option.some.injEq] at hs
      subst hs
      refine ⟨[.rem o.topic l], _, upd ls i ((ls i).filter fun y => decide (y.id ≠ x.id)), rfl, rfl, ?_⟩
      refine ⟨?_, hi.cur.set (o' := { o with em := em, map := upd o.map l none }) ho rfl ?_, hi.hd, hi.loop, hi.acc, hi.cl⟩
      rotate_left
      · intro y hy hyo
        refine List.mem_filter.mpr ⟨hy, ?_⟩
        simp only [ne_eq, decide_not, Bool.not_eq_eq_eq_not, Bool.not_true, decide_eq_false_iff_not]
        intro e
        rw [id_inj h1 hy hx e, hxo] at hyo; cases hyo
      refine hr.modify (s' := { s with objs := s.objs.set i (.sub { o with em := em, map := upd o.map l none }), hist := s.hist ++ [.rem o.topic l] })
        ho rfl rfl rfl rfl rfl rfl rfl hr.cnt (Nat.le_refl _) hrep (fun y hy => h3 y (List.mem_filter.mp hy).1) ?_ ?_ (nos_filter (hr.nos _) _)
      · refine ⟨fun y hy hyo => ?_, fun m id hm => ?_⟩
        · obtain ⟨hy, hne⟩ := List.mem_filter.mp hy
          simp only [ne_eq, decide_not, Bool.not_eq_eq_eq_not, Bool.not_true, decide_eq_false_iff_not] at hne
          have hy1 := h4.1 y hy hyo
          have : y.lname ≠ l := by
            intro e
            rw [e, hl] at hy1
            exact hne (Option.some.inj hy1).symm
          exact (upd_other _ _ this).trans hy1
        · simp only [upd_apply] at hm
          split at hm
          · cases hm
          · rename_i hml
            obtain ⟨y, hy, hyo, hyl, hyi⟩ := h4.2 m id hm
            refine ⟨y, List.mem_filter.mpr ⟨hy, ?_⟩, hyo, hyl, hyi⟩
            simp only [ne_eq, decide_not, Bool.not_eq_eq_eq_not, Bool.not_true, decide_eq_false_iff_not]
            intro e
            have := id_inj h1 hy hx e
            rw [this, hxl] at hyl
            exact hml hyl.symm
      · rw [h2, List.filter_map]
        congr 1
        apply List.filter_congr
        intro y hy
        rw [Bool.eq_iff_iff]
        rw [decide_eq_true_eq]
        simp only [Function.comp]
        rw [decide_eq_true_eq, not_iff_not]
        simp only [ent]
        constructor
        · intro e
          split at e
          · cases e
          · rename_i hyo
            injection e with e
            have := h4.1 y hy (by simpa using hyo)
            rw [e, hl] at this
            exact (Option.some.inj this).symm
        · intro e
          rw [id_inj h1 hy hx e]
          simp [hxo, hxl]
  · cases hs

/-- Steps of publishers, of the loop between deliveries, start and stop. -/
theorem Inv.other {k : Nat} {s : St D F} {a : Abs (Msg D F)} {ls : Nat → List Lst} (hi : Inv k s a ls) {x : EvLoop.Act (Msg D F)} {l : EvLoop.St (Msg D F)}
    (hok : EvLoop.OkAct s.loop x) (hm : mayPublish s x = true) (hs : EvLoop.step k s.loop x = some l) (h1 : x ≠ .finish) (h2 : x ≠ .throw) (h3 : x ≠ .advance) :
    Good k s { s with loop := l } a := by
  obtain ⟨h4, _⟩ := loop_other hi.loop hs h1 h2 h3
  obtain ⟨h5, h6⟩ := loop_wt hi.loop hs hm hi.acc hi.cl
  exact ⟨[], a, ls, by simp, rfl, hi.regs.congr rfl rfl rfl rfl rfl rfl rfl, hi.cur, hi.hd.trans h4.symm, hi.loop.step (a := x) trivial hok hs, h5, h6⟩

theorem Inv.advance {k : Nat} (hk : k ≤ 30) {c : Bool} {s s' : St D F} {a : Abs (Msg D F)} {ls : Nat → List Lst} (hi : Inv k s a ls)
    (hs : step k c s (.loop .advance) = some s') : Good k s s' a := by
  simp only [step] at hs
  split at hs
  · cases hs
  rename_i l hl
  have hwt := loop_wt hi.loop hl rfl hi.acc hi.cl
  have hreach : EvLoop.Reach k (fun _ _ => True) l := hi.loop.step (a := .advance) trivial trivial hl
  rcases loop_advance hk hi.loop hl with ⟨h1, h2, h3, _⟩ | ⟨e, m, h1, h2, h3, h4, ⟨p, x, h5⟩, _⟩
  · rw [h2] at hs
    cases hs
    refine ⟨[], a, ls, by simp, rfl, hi.regs.congr rfl rfl rfl rfl rfl rfl rfl, hi.cur, ?_, hreach, hwt.1, hwt.2⟩
    have := hi.hd
    exact ⟨fun h => absurd (this.mp h) h1, fun h => absurd h h3⟩
  · rw [h2] at hs
    simp only [h3, Option.some.injEq] at hs
    have hdel : s.del = none := by
      cases hd : s.del with
      | none => rfl
      | some d => exact absurd (hi.hd.mp (by rw [hd]; rfl)) h1
    have hcur : a.cur = none := by
      have := hi.cur
      rw [hdel] at this
      cases hc : a.cur with
      | none => rfl
      | some y => rw [hc] at this; exact this.elim
    have hw := hi.acc p _ _ x h5
    have hnos := (hi.regs.nos e.topic).2
    have key : fits s e.topic (some m) = true ∧ ((targets s e.topic).map (·.2.cb)).Nodup ∧
        List.Forall₂ (TE s.objs ls e.topic m) (targets s e.topic) (a.live e.topic) := by
      rcases hi.regs.targets e.topic with ⟨_, b1, b2, b3⟩ | ⟨i, o, b1, b2, b3, b4, b5, b6⟩ | ⟨i, id, no, b1, b2, b3, b4, b5, b6⟩
      · rw [b1, b2]; exact ⟨b3 _, by simp, .nil⟩
      · cases m with
        | fn f =>
          obtain ⟨_, j, id, no, c1, c2⟩ := hi.regs.sch e.topic hw
          rw [b1] at c1; cases c1
          rw [b2] at c2; cases c2
        | ev d =>
          refine ⟨b6 d, ?_, ?_⟩
          · rw [b4] at hnos
            rw [b5, List.map_map]
            rw [List.map_map] at hnos
            exact hnos
          · rw [b4, b5, List.forall₂_map_left_iff, List.forall₂_map_right_iff, List.forall₂_same]
            intro x hx
            refine ⟨rfl, ?_, ?_, fun ho => ⟨⟨o, b2, b3⟩, x, hx, rfl, rfl, ho⟩⟩
            · simp only [ent]
              split <;> rfl
            · simp only [ent]
              split <;> simp_all
      · cases m with
        | ev d => exact absurd hw (hi.regs.sch e.topic b5).1
        | fn f =>
          refine ⟨b6 f, by rw [b4]; simp, ?_⟩
          rw [b3, b4]
          refine .cons ⟨rfl, rfl, by simp, by simp⟩ .nil
    rw [if_pos key.1, List.append_nil] at hs
    subst hs
    refine ⟨[.start e.topic (some m)], { a with cur := some (e.topic, m, a.live e.topic) }, ls, rfl, ?_, ?_⟩
    · simp only [Abs.run, Abs.next, hcur, Option.isNone_none, if_true]
    · exact ⟨hi.regs.congr rfl rfl rfl rfl rfl rfl rfl, ⟨rfl, key.2⟩, ⟨fun _ => h4, fun _ => rfl⟩, hreach, hwt.1, hwt.2⟩

theorem Inv.finish {k : Nat} {c : Bool} {s s' : St D F} {a : Abs (Msg D F)} {ls : Nat → List Lst} (hi : Inv k s a ls)
    (hs : step k c s (.loop .finish) = some s') : Good k s s' a := by
  simp only [step] at hs
  split at hs
  · rename_i msg hd
    rw [Option.map_eq_some_iff] at hs
    obtain ⟨l, hl, rfl⟩ := hs
    obtain ⟨h1, h2, h3, _⟩ := loop_finish hi.loop hl
    have hreach : EvLoop.Reach k (fun _ _ => True) l := hi.loop.step (a := .finish) trivial trivial hl
    have hcur := hi.cur
    rw [hd] at hcur
    match hc : a.cur with
    | none => rw [hc] at hcur; exact hcur.elim
    | some (n, m, ents) =>
      rw [hc] at hcur
      obtain ⟨_, _, h4⟩ := hcur
      cases h4
      refine ⟨[.fin], { a with cur := none }, ls, rfl, by simp only [Abs.run, Abs.next, hc], hi.regs.congr rfl rfl rfl rfl rfl rfl rfl, trivial,
        ⟨nofun, fun h => absurd h h1⟩, hreach, ?_, ?_⟩
      · intro p t d x hx; exact hi.acc p t d x (by rw [← h2]; exact hx)
      · intro p t d hx; exact hi.cl p t d (by rw [← h3]; exact hx)
  · cases hs

theorem Inv.call {k : Nat} {c : Bool} {s s' : St D F} {a : Abs (Msg D F)} {ls : Nat → List Lst} (hi : Inv k s a ls) {ret : Bool}
    (hs : step k c s (.call ret) = some s') : Good k s s' a := by
  simp only [step] at hs
  split at hs
  · rename_i m i h rest hd
    have hr := hi.regs
    rw [if_neg (by rw [hr.dead]; simp)] at hs
    have hcur := hi.cur
    rw [hd] at hcur
    match hc : a.cur with
    | none => rw [hc] at hcur; exact hcur.elim
    | some (n, m', ents) =>
      rw [hc] at hcur
      obtain ⟨h1, h2, h3⟩ := hcur
      cases h1
      cases h3 with
      | @cons _ e _ es hte hrest =>
      obtain ⟨t1, t2, t3, t4⟩ := hte
      simp only [List.map_cons, List.nodup_cons] at h2
      split at hs
      · -- the listener throws
        rename_i hret
        subst hret
        simp only [thrown] at hs
        rw [Option.map_eq_some_iff] at hs
        obtain ⟨l, hl, rfl⟩ := hs
        obtain ⟨g1, g2, g3, _⟩ := loop_throw hi.loop hl
        have hreach : EvLoop.Reach k (fun _ _ => True) l := hi.loop.step (a := .throw) trivial trivial hl
        refine ⟨[.call h.cb m false], { a with cur := none }, ls, rfl, ?_, hr.congr rfl rfl rfl rfl rfl rfl rfl, trivial,
          ⟨nofun, fun h => absurd h g1⟩, hreach, ?_, ?_⟩
        · simp only [Abs.run, Abs.next, hc, t2, t1.symm, and_self, if_true]; simp
        · intro p t d x hx; exact hi.acc p t d x (by rw [← g2]; exact hx)
        · intro p t d hx; exact hi.cl p t d (by rw [← g3]; exact hx)
      · rename_i hret
        have hret : ret = true := by simpa using hret
        subst hret
        have hd' : (some ⟨some m, rest⟩ : Option (Deliv (Msg D F))).isSome = true ↔ ∃ nx av, s.loop.ring.cp 0 = .handle nx av := by
          rw [← hi.hd, hd]; rfl
        cases ho : h.once with
        | false =>
          have hek : e.kind ≠ .once := by
            intro e1
            have := t3.mpr e1
            rw [ho] at this; cases this
          have hs : some { s with del := some ⟨some m, rest⟩, hist := s.hist ++ [.call h.cb m true] } = some s' := by
            rw [ho] at hs
            split at hs
            · rename_i heq; cases heq
            · exact hs
          cases hs
          refine ⟨[.call h.cb m true], { a with cur := some (n, m, es) }, ls, rfl, ?_, hr.congr rfl rfl rfl rfl rfl rfl rfl, ⟨rfl, h2.2, hrest⟩, hd', hi.loop, hi.acc, hi.cl⟩
          simp only [Abs.run, Abs.next, hc, t2, t1.symm, and_self, if_true, if_neg hek]
        | true =>
          obtain ⟨⟨o, o1, o2⟩, x, x1, x2, x3, x4⟩ := t4 ho
          dsimp only at o1 x1 x2 x3
          obtain ⟨g0, g1, g2, g3, g4, g5⟩ := hr.obj i _ o1
          obtain ⟨em, he, hrep⟩ := g1.remove c x1
          rw [x2] at he
          simp only [o1, ho, he, Option.some.injEq] at hs
          subst hs
          have hek : e.kind = .once := t3.mp ho
          have hno : e.no = x.cb := by rw [x3]; exact t1.symm
          have hnod : ((ls i).map Lst.cb).Nodup := by
            have := (hr.nos o.topic).2
            rw [g2, List.map_map] at this
            exact this
          refine ⟨[.call h.cb m true], { a with cur := some (n, m, es), live := upd a.live n ((a.live n).filter fun y => decide (y.no ≠ h.cb)) },
            upd ls i ((ls i).filter fun y => decide (y.id ≠ x.id)), rfl, ?_, ?_, ?_, hd', hi.loop, hi.acc, hi.cl⟩
          · have t1 : e.no = h.cb := t1.symm
            rw [hek] at t2
            simp only [Abs.run, Abs.next, hc, t1, hek, t2, and_self, if_true]
          · rw [← o2]
            refine hr.modify (s' := { s with del := some ⟨some m, rest⟩, hist := s.hist ++ [.call h.cb m true], objs := s.objs.set i (.sub { o with em := em }) })
              o1 rfl rfl rfl rfl rfl rfl rfl hr.cnt (Nat.le_refl _) hrep (fun y hy => g3 y (List.mem_filter.mp hy).1) ?_ ?_ (nos_filter (hr.nos _) _)
            · refine ⟨fun y hy hyo => g4.1 y (List.mem_filter.mp hy).1 hyo, fun m' id hm => ?_⟩
              obtain ⟨y, hy, hyo, hyl, hyi⟩ := g4.2 m' id hm
              refine ⟨y, List.mem_filter.mpr ⟨hy, ?_⟩, hyo, hyl, hyi⟩
              rw [decide_eq_true_eq]
              intro e'
              rw [id_inj g1 hy x1 e', x4] at hyo; cases hyo
            · rw [g2, List.filter_map]
              congr 1
              apply List.filter_congr
              intro y hy
              rw [Bool.eq_iff_iff]
              rw [decide_eq_true_eq]
              simp only [Function.comp]
              rw [decide_eq_true_eq, not_iff_not]
              simp only [ent]
              constructor
              · intro e'
                rw [List.inj_on_of_nodup_map hnod hy x1 (by rw [e', x3])]
              · intro e'
                rw [id_inj g1 hy x1 e', x3]
          · refine ⟨rfl, h2.2, ?_⟩
            have hmono : Cur (s.objs.set i (.sub { o with em := em })) (upd ls i ((ls i).filter fun y => decide (y.id ≠ x.id))) (some ⟨some m, rest⟩) (some (n, m, es)) := by
              refine Cur.mono (objs := s.objs) (ls := ls) ⟨rfl, h2.2, hrest⟩ (fun j oj hj => ?_) ?_
              · by_cases e' : j = i
                · subst e'
                  rw [o1] at hj; cases hj
                  exact ⟨{ o with em := em }, List.getElem?_set_self (lt_of_getElem? o1), rfl⟩
                · exact ⟨oj, by rw [List.getElem?_set_ne (Ne.symm e')]; exact hj, rfl⟩
              · intro dv hdv t ht hto y hy hyc hyo
                cases hdv
                by_cases e' : t.1 = i
                · rw [e', upd_same]
                  rw [e'] at hy
                  refine List.mem_filter.mpr ⟨hy, ?_⟩
                  rw [decide_eq_true_eq]
                  intro e1
                  have := id_inj g1 hy x1 e1
                  subst this
                  exact h2.1 (by rw [← x3, hyc]; exact List.mem_map.mpr ⟨t, ht, rfl⟩)
                · rw [upd_other _ _ e']; exact hy
            exact hmono.2.2
  · cases hs

theorem Inv.step {k : Nat} (hk : k ≤ 30) {c : Bool} {s s' : St D F} {a : Abs (Msg D F)} {ls : Nat → List Lst} (hi : Inv k s a ls) {x : Act D F}
    (hok : Ok s x) (hp : OkPtr s x) (hs : ElD.step k c s x = some s') : Good k s s' a := by
  match x, hok, hp, hs with
  | .getPublisher n, hok, _, hs => exact hi.getPublisher hok hs
  | .getSubscriber n kd, hok, _, hs => exact hi.getSubscriber hok hs
  | .getScheduler n, hok, _, hs => exact hi.getScheduler hok hs
  | .reg i l, hok, ⟨o, ho⟩, hs => exact hi.reg ho (hok o ho).1 (hok o ho).2 hs
  | .once i, hok, ⟨o, ho⟩, hs => exact hi.once ho (hok o ho) hs
  | .rem i l, _, ⟨o, ho⟩, hs => exact hi.rem ho hs
  | .call ret, _, _, hs => exact hi.call hs
  | .loop .advance, _, _, hs => exact hi.advance hk hs
  | .loop .finish, _, _, hs => exact hi.finish hs
  | .loop .throw, _, _, hs => cases hs
  | .loop (.call ..), hok, _, hs | .loop (.claim ..), hok, _, hs | .loop (.weak ..), hok, _, hs | .loop (.write ..), hok, _, hs | .loop (.publish ..), hok, _, hs | .loop .start, hok, _, hs
  | .loop .run, hok, _, hs | .loop .look, hok, _, hs | .loop .scan, hok, _, hs | .loop .stop, hok, _, hs =>
    simp only [ElD.step] at hs
    split at hs
    · rename_i hm
      rw [Option.map_eq_some_iff] at hs
      obtain ⟨l, hl, rfl⟩ := hs
      refine Inv.other hi ?_ hm hl nofun nofun nofun
      exact hok
    · cases hs

theorem Reach.inv {k : Nat} (hk : k ≤ 30) {c : Bool} {kind : Kind} {s : St D F} (h : Reach k c kind (fun s a => Ok s a ∧ OkPtr s a) s) :
    ∃ a ls, (Abs.init : Abs (Msg D F)).run s.hist = some a ∧ Inv k s a ls := by
  induction h with
  | init => exact ⟨_, _, rfl, Inv.init k kind⟩
  | step _ hp hs ih =>
    obtain ⟨a, ls, h1, h2⟩ := ih
    obtain ⟨evs, a', ls', h3, h4, h5⟩ := h2.step hk hp.1 hp.2 hs
    exact ⟨a', ls', by rw [h3, Abs.run_append, h1]; exact h4, h5⟩

/-! ### The loop and the history -/

omit [DecidableEq D] [DecidableEq F] in
theorem withSub_loop {s s' : St D F} {i : Nat} {f : Sub → Option (St D F)} (hf : ∀ o s', f o = some s' → s'.loop = s.loop ∧ starts s'.hist = starts s.hist)
    (h : withSub s i f = some s') : s'.loop = s.loop ∧ starts s'.hist = starts s.hist := by
  simp only [withSub] at h
  split at h
  · split at h
    · cases h; simp [starts]
    · exact hf _ _ h
  · cases h; simp [starts]
  · cases h

omit [DecidableEq D] [DecidableEq F] in
theorem step_loop {k : Nat} {c : Bool} {s s' : St D F} {x : Act D F} (hs : ElD.step k c s x = some s') :
    (s'.loop = s.loop ∧ starts s'.hist = starts s.hist) ∨
    (∃ a, x = .loop a ∧ a ≠ .advance ∧ EvLoop.step k s.loop a = some s'.loop ∧ starts s'.hist = starts s.hist) ∨
    (EvLoop.step k s.loop .throw = some s'.loop ∧ starts s'.hist = starts s.hist) ∨
    (x = .loop .advance ∧ EvLoop.step k s.loop .advance = some s'.loop ∧
      starts s'.hist = starts s.hist ++ (newEmission s.loop s'.loop).toList.map fun e => (e.topic, e.data)) := by
  match x, hs with
  | .getPublisher n, hs =>
    simp only [ElD.step] at hs
    split at hs <;> cases hs <;> simp [starts]
  | .getSubscriber n kd, hs =>
    simp only [ElD.step] at hs
    (repeat' split at hs) <;> first | (cases hs; done) | (cases hs; simp [starts])
  | .getScheduler n, hs =>
    simp only [ElD.step] at hs
    split at hs
    · cases hs; simp
    · split at hs
      · cases hs
        left
        have h1 : ∀ y : List (Ev (Msg D F)), y = (if schedName n ∈ s.pubs then [.bad] else []) → starts (s.hist ++ [.sched (schedName n)] ++ y) = starts s.hist := by
          rintro y rfl
          split <;> simp [starts]
        simp only [makeScheduler]
        split
        · simp only [destroy]
          split <;> exact ⟨rfl, h1 _ rfl⟩
        · exact ⟨rfl, h1 _ rfl⟩
      · cases hs
  | .reg i l, hs =>
    refine .inl (withSub_loop (fun o s' h => ?_) hs)
    (repeat' split at h) <;> first | (cases h; done) | (cases h; simp [starts])
  | .once i, hs =>
    refine .inl (withSub_loop (fun o s' h => ?_) hs)
    (repeat' split at h) <;> first | (cases h; done) | (cases h; simp [starts])
  | .rem i l, hs =>
    refine .inl (withSub_loop (fun o s' h => ?_) hs)
    (repeat' split at h) <;> first | (cases h; done) | (cases h; simp [starts])
  | .call ret, hs =>
    have ht : ∀ {e : Ev (Msg D F)} {s' : St D F}, starts [e] = [] → thrown k { s with hist := s.hist ++ [e] } = some s' →
        EvLoop.step k s.loop .throw = some s'.loop ∧ starts s'.hist = starts s.hist := by
      intro e s' he h
      simp only [thrown, Option.map_eq_some_iff] at h
      obtain ⟨l, hl, rfl⟩ := h
      refine ⟨hl, ?_⟩
      simp only [starts, List.filterMap_append] at he ⊢
      rw [he, List.append_nil]
    simp only [ElD.step] at hs
    split at hs
    · split at hs
      · cases hs; simp [starts]
      · split at hs
        · exact .inr (.inr (.inl (ht rfl hs)))
        · split at hs
          · split at hs
            · cases hs; simp [starts]
            · exact .inr (.inr (.inl (ht rfl hs)))
          · cases hs; simp [starts]
    · cases hs
  | .loop .advance, hs =>
    refine .inr (.inr (.inr ⟨rfl, ?_⟩))
    simp only [ElD.step] at hs
    split at hs
    · cases hs
    · rename_i l hl
      split at hs
      · rename_i he
        cases hs
        exact ⟨hl, by simp [he]⟩
      · rename_i e he
        cases hs
        refine ⟨hl, ?_⟩
        simp only [he, Option.toList_some, List.map_cons, List.map_nil]
        split <;> simp [starts]
  | .loop .finish, hs =>
    refine .inr (.inl ⟨.finish, rfl, nofun, ?_⟩)
    simp only [ElD.step] at hs
    split at hs
    · rw [Option.map_eq_some_iff] at hs
      obtain ⟨l, hl, rfl⟩ := hs
      exact ⟨hl, by simp [starts]⟩
    · cases hs
  | .loop .throw, hs => cases hs
  | .loop (.call ..), hs | .loop (.claim ..), hs | .loop (.weak ..), hs | .loop (.write ..), hs | .loop (.publish ..), hs | .loop .start, hs
  | .loop .run, hs | .loop .look, hs | .loop .scan, hs | .loop .stop, hs =>
    simp only [ElD.step] at hs
    split at hs
    · rw [Option.map_eq_some_iff] at hs
      obtain ⟨l, hl, rfl⟩ := hs
      exact .inr (.inl ⟨_, rfl, nofun, hl, rfl⟩)
    · cases hs

omit [DecidableEq D] [DecidableEq F] in
/-- The loop inside is one of C30 and C31. -/
theorem Reach.loop {k : Nat} {c : Bool} {kind : Kind} {P : St D F → Act D F → Prop} {Q : EvLoop.St (Msg D F) → EvLoop.Act (Msg D F) → Prop}
    (h1 : ∀ s a, P s (.loop a) → Q s.loop a ∧ EvLoop.OkAct s.loop a) (h2 : ∀ l, Q l .throw) {s : St D F} (h : Reach k c kind P s) : EvLoop.Reach k Q s.loop := by
  induction h with
  | init => exact .init
  | @step s s' x _ hp hs ih =>
    rcases step_loop hs with ⟨h, _⟩ | ⟨a, rfl, _, h, _⟩ | ⟨h, _⟩ | ⟨rfl, h, _⟩
    · rw [h]; exact ih
    · exact ih.step (h1 _ _ hp).1 (h1 _ _ hp).2 h
    · exact ih.step (h2 _) trivial h
    · exact ih.step (h1 _ _ hp).1 (h1 _ _ hp).2 h

omit [DecidableEq D] [DecidableEq F] in
/-- The events taken up are those the loop has emitted. -/
theorem Reach.starts {k : Nat} (hk : k ≤ 30) {c : Bool} {kind : Kind} {P : St D F → Act D F → Prop} (h1 : ∀ s a, P s (.loop a) → EvLoop.OkAct s.loop a) {s : St D F}
    (h : Reach k c kind P s) : starts s.hist = (EvLoop.allEmitted s.loop).map fun e => (e.topic, e.data) := by
  induction h with
  | init => rfl
  | @step s s' x hr hp hs ih =>
    have hl : EvLoop.Reach k (fun _ _ => True) s.loop := hr.loop (fun s a h => ⟨trivial, h1 s a h⟩) (fun _ => trivial)
    rcases step_loop hs with ⟨h, h3⟩ | ⟨a, rfl, hna, h, h3⟩ | ⟨h, h3⟩ | ⟨rfl, h, h3⟩
    · rw [h, h3]; exact ih
    · rw [h3, ih]
      congr 1
      by_cases e1 : a = .finish
      · subst e1; exact (loop_finish hl h).2.2.2.symm
      · by_cases e2 : a = .throw
        · subst e2; exact (loop_throw hl h).2.2.2.symm
        · exact (loop_other hl h e1 e2 hna).2.symm
    · rw [h3, ih, (loop_throw hl h).2.2.2]
    · rw [h3, ih]
      rcases loop_advance hk hl h with ⟨_, e1, _, e2⟩ | ⟨e, m, _, e1, _, _, _, e2⟩
      · rw [e1, e2]; simp
      · rw [e1, e2]; simp

end Verif.ElD
