import Verif.Spec.MemDispatch
import Verif.Lemmas.ElDispatchSpec
import Verif.Lemmas.ElDispatchInv

/-! Lemmas for C81: the dispatch of an in-memory middleware follows the specification. -/

namespace Verif.MemD
open Verif ElD

variable {D : Type} {C : Chan D}

/-- What is used of a middleware; `emitted`: the events it is done with. -/
structure Lawful (C : Chan D) (emitted : C.σ → List D) : Prop where
  init : C.hand C.init = none ∧ emitted C.init = []
  other : ∀ s s' a, C.own a = false → C.step s a = some s' →
    (∀ d, C.hand s = some d → C.hand s' = some d) ∧ emitted s' = emitted s ∧ (C.alive s = true → C.alive s' = true)
  emit : ∀ s s', C.step s C.emit = some s' → ∃ d, C.hand s = some d ∧ emitted s' = emitted s ++ [d]
  throw : ∀ s s', C.step s C.throw = some s' → ∃ d, C.hand s = some d ∧ emitted s' = emitted s ++ [d]
  can : ∀ s d, C.alive s = true → C.hand s = some d → (∃ s', C.step s C.emit = some s') ∧ ∃ s', C.step s C.throw = some s'

/-- A listener to be called, concretely and in the specification. -/
def TE (ls : List Lst) (t : Handler) (e : Ent) : Prop :=
  t.cb = e.no ∧ e.kind ≠ .exec ∧ (t.once = true ↔ e.kind = .once) ∧ (t.once = true → ∃ x ∈ ls, x.id = t.id ∧ x.cb = t.cb ∧ x.once = true)

def Cur (n : String) (ls : List Lst) : Option (D × List Handler) → Option (String × Msg D Empty × List Ent) → Prop
  | none, none => True
  | some (d, todo), some (n', m, ents) => n' = n ∧ m = .ev d ∧ (todo.map (·.cb)).Nodup ∧ List.Forall₂ (TE ls) todo ents
  | _, _ => False

structure Inv (emitted : C.σ → List D) (n : String) (s : St C) (a : Abs (Msg D Empty)) (ls : List Lst) : Prop where
  cnt : a.count = s.count
  rep : Rep s.em ls
  live : a.live n = ls.map ent
  sub : ∀ x ∈ ls, x.sub = n
  map : MapOk s.map ls
  nos : (∀ e ∈ a.live n, e.no < a.count) ∧ ((a.live n).map Ent.no).Nodup
  cur : Cur n ls s.del a.cur
  hand : ∀ d todo, s.del = some (d, todo) → C.hand s.ch = some d ∧ C.alive s.ch = true
  taken : takenUp s.hist = emitted s.ch ++ (s.del.map (·.1)).toList

theorem Inv.init {emitted : C.σ → List D} (hl : Lawful C emitted) (n : String) (kind : Kind) : Inv emitted n (St.init C kind) .init [] where
  cnt := rfl
  rep := Rep.make kind
  live := rfl
  sub := nofun
  map := ⟨nofun, nofun⟩
  nos := ⟨nofun, List.nodup_nil⟩
  cur := trivial
  hand := nofun
  taken := by show [] = emitted C.init ++ []; rw [hl.init.2]; rfl

theorem Cur.mono {n : String} {ls ls' : List Lst} {d : Option (D × List Handler)} {c : Option (String × Msg D Empty × List Ent)} (h : Cur n ls d c)
    (h2 : ∀ dv, d = some dv → ∀ t ∈ dv.2, t.once = true → ∀ x ∈ ls, x.cb = t.cb → x.once = true → x ∈ ls') : Cur n ls' d c := by
  match d, c, h with
  | none, none, _ => trivial
  | some (d, todo), some (n', m, ents), ⟨a0, a1, a2, a3⟩ =>
    refine ⟨a0, a1, a2, ?_⟩
    replace h2 := h2 _ rfl
    dsimp only at h2
    clear a1 a2 a0
    induction a3 with
    | nil => exact .nil
    | @cons t e ts es hte _ ih =>
      refine .cons ?_ (ih fun t' ht' => h2 t' (List.mem_cons_of_mem _ ht'))
      obtain ⟨b1, b2, b3, b4⟩ := hte
      refine ⟨b1, b2, b3, fun ho => ?_⟩
      obtain ⟨x, x1, x2, x3, x4⟩ := b4 ho
      exact ⟨x, h2 t List.mem_cons_self ho x x1 x3 x4, x2, x3, x4⟩

variable [DecidableEq D]

/-- The step adds to the history what the specification allows, and the invariant holds again. -/
def Good (emitted : C.σ → List D) (n : String) (s s' : St C) (a : Abs (Msg D Empty)) : Prop :=
  ∃ evs a' ls', s'.hist = s.hist ++ evs ∧ a.run evs = some a' ∧ Inv emitted n s' a' ls'

omit [DecidableEq D] in
theorem takenUp_append (h h' : List (Event D)) : takenUp (h ++ h') = takenUp h ++ takenUp h' := List.filterMap_append

theorem Inv.reg {emitted : C.σ → List D} {n : String} {c : Bool} {s s' : St C} {a : Abs (Msg D Empty)} {ls : List Lst} (hi : Inv emitted n s a ls) {l : String}
    (hl : s.map l = none) (hroom : s.em.room) (hs : step n c s (.reg l) = some s') : Good emitted n s s' a := by
  simp only [step] at hs
  split at hs
  · simp only [Option.some.injEq] at hs
    subst hs
    have hn : ∀ x ∈ ls, x.once = false → x.lname ≠ l := by
      intro x hx hxo e
      have := hi.map.1 x hx hxo
      rw [e, hl] at this; cases this
    refine ⟨[.reg n l], _, ls ++ [⟨(s.em.on c l n s.count).2, l, n, false, s.count⟩], rfl, rfl, ?_⟩
    constructor
    · simp [hi.cnt]
    · exact hi.rep.on hroom c hn n s.count
    · simp [upd_same, hi.live, ent, hi.cnt]
    · intro x hx
      rcases List.mem_append.mp hx with hx | hx
      · exact hi.sub x hx
      · simp only [List.mem_singleton] at hx; subst hx; rfl
    · refine ⟨fun x hx hxo => ?_, fun m id hm => ?_⟩
      · rcases List.mem_append.mp hx with hx | hx
        · exact (upd_other _ _ (hn x hx hxo)).trans (hi.map.1 x hx hxo)
        · simp only [List.mem_singleton] at hx; subst hx; simp
      · simp only [upd_apply] at hm
        split at hm
        · cases hm
          exact ⟨_, List.mem_append_right _ (List.mem_singleton.mpr rfl), rfl, by simp [*], rfl⟩
        · obtain ⟨x, hx, h6⟩ := hi.map.2 m id hm
          exact ⟨x, List.mem_append_left _ hx, h6⟩
    · simp only [upd_same]; exact nos_append hi.nos _
    · exact hi.cur.mono fun _ _ _ _ _ x hx _ _ => List.mem_append_left _ hx
    · exact hi.hand
    · rw [takenUp_append, hi.taken]; simp [takenUp]
  · cases hs

theorem Inv.once {emitted : C.σ → List D} {n : String} {c : Bool} {s s' : St C} {a : Abs (Msg D Empty)} {ls : List Lst} (hi : Inv emitted n s a ls)
    (hroom : s.em.room) (hs : step n c s .once = some s') : Good emitted n s s' a := by
  simp only [step] at hs
  split at hs
  · rename_i em he
    simp only [Option.some.injEq] at hs
    subst hs
    obtain ⟨id, hrep⟩ := hi.rep.addOnce hroom he
    refine ⟨[.once n], _, ls ++ [⟨id, "", n, true, s.count⟩], rfl, rfl, ?_⟩
    constructor
    · simp [hi.cnt]
    · exact hrep
    · simp [upd_same, hi.live, ent, hi.cnt]
    · intro x hx
      rcases List.mem_append.mp hx with hx | hx
      · exact hi.sub x hx
      · simp only [List.mem_singleton] at hx; subst hx; rfl
    · refine ⟨fun x hx hxo => ?_, fun m id hm => ?_⟩
      · rcases List.mem_append.mp hx with hx | hx
        · exact hi.map.1 x hx hxo
        · simp only [List.mem_singleton] at hx; subst hx; cases hxo
      · obtain ⟨x, hx, h6⟩ := hi.map.2 m id hm
        exact ⟨x, List.mem_append_left _ hx, h6⟩
    · simp only [upd_same]; exact nos_append hi.nos _
    · exact hi.cur.mono fun _ _ _ _ _ x hx _ _ => List.mem_append_left _ hx
    · exact hi.hand
    · rw [takenUp_append, hi.taken]; simp [takenUp]
  · cases hs; exact ⟨[], a, ls, by simp, rfl, hi⟩

theorem Inv.rem {emitted : C.σ → List D} {n : String} {c : Bool} {s s' : St C} {a : Abs (Msg D Empty)} {ls : List Lst} (hi : Inv emitted n s a ls) {l : String}
    (hs : step n c s (.rem l) = some s') : Good emitted n s s' a := by
  simp only [step] at hs
  split at hs
  · split at hs
    · rename_i hl
      simp only [Option.some.injEq] at hs
      subst hs
      have he : (a.live n).filter (fun e => decide (e.kind ≠ .named l)) = a.live n := by
        rw [List.filter_eq_self]
        intro e he
        rw [hi.live] at he
        obtain ⟨x, hx, rfl⟩ := List.mem_map.mp he
        rw [decide_eq_true_eq]
        simp only [ent]
        intro e'
        split at e'
        · cases e'
        · rename_i hxo
          injection e' with e'
          have := hi.map.1 x hx (by simpa using hxo)
          rw [e', hl] at this; cases this
      refine ⟨[.rem n l], a, ls, rfl, ?_, ?_⟩
      · simp only [Abs.run, Abs.next, he]
        congr
        funext m
        by_cases e : m = n
        · rw [e, upd_same]
        · rw [upd_other _ _ e]
      · exact { hi with taken := by rw [takenUp_append, hi.taken]; simp [takenUp] }
    · rename_i id hl
      obtain ⟨x, hx, hxo, hxl, rfl⟩ := hi.map.2 l id hl
      obtain ⟨em, he, hrep⟩ := hi.rep.remove c hx
      rw [he] at hs
      simp only [Option.some.injEq] at hs
      subst hs
      refine ⟨[.rem n l], _, ls.filter fun y => decide (y.id ≠ x.id), rfl, rfl, ?_⟩
      constructor
      · exact hi.cnt
      · exact hrep
      · simp only [upd_same, hi.live]
        rw [List.filter_map]
        congr 1
        apply List.filter_congr
        intro y hy
        rw [Bool.eq_iff_iff]
        rw [decide_eq_true_eq]
        simp only [Function.comp]
        rw [decide_eq_true_eq, not_iff_not]
        simp only [ent]
        constructor
        · intro e
          split at e
          · cases e
          · rename_i hyo
            injection e with e
            have := hi.map.1 y hy (by simpa using hyo)
            rw [e, hl] at this
            exact (Option.some.inj this).symm
        · intro e
          rw [id_inj hi.rep hy hx e]
          simp [hxo, hxl]
      · exact fun y hy => hi.sub y (List.mem_filter.mp hy).1
      · refine ⟨fun y hy hyo => ?_, fun m id hm => ?_⟩
        · obtain ⟨hy, hne⟩ := List.mem_filter.mp hy
          simp only [ne_eq, decide_not, Bool.not_eq_eq_eq_not, Bool.not_true, decide_eq_false_iff_not] at hne
          have hy1 := hi.map.1 y hy hyo
          have : y.lname ≠ l := by
            intro e
            rw [e, hl] at hy1
            exact hne (Option.some.inj hy1).symm
          exact (upd_other _ _ this).trans hy1
        · simp only [upd_apply] at hm
          split at hm
          · cases hm
          · rename_i hml
            obtain ⟨y, hy, hyo, hyl, hyi⟩ := hi.map.2 m id hm
            refine ⟨y, List.mem_filter.mpr ⟨hy, ?_⟩, hyo, hyl, hyi⟩
            simp only [ne_eq, decide_not, Bool.not_eq_eq_eq_not, Bool.not_true, decide_eq_false_iff_not]
            intro e
            have := id_inj hi.rep hy hx e
            rw [this, hxl] at hyl
            exact hml hyl.symm
      · simp only [upd_same]; exact nos_filter hi.nos _
      · refine hi.cur.mono fun _ _ _ _ _ y hy _ hyo => List.mem_filter.mpr ⟨hy, ?_⟩
        simp only [ne_eq, decide_not, Bool.not_eq_eq_eq_not, Bool.not_true, decide_eq_false_iff_not]
        intro e
        rw [id_inj hi.rep hy hx e, hxo] at hyo; cases hyo
      · exact hi.hand
      · rw [takenUp_append, hi.taken]; simp [takenUp]
  · cases hs

theorem Inv.ch {emitted : C.σ → List D} (hlaw : Lawful C emitted) {n : String} {c : Bool} {s s' : St C} {a : Abs (Msg D Empty)} {ls : List Lst} (hi : Inv emitted n s a ls)
    {x : C.Act} (hs : step n c s (.ch x) = some s') : Good emitted n s s' a := by
  simp only [step] at hs
  split at hs
  · cases hs
  · rename_i ho
    rw [Option.map_eq_some_iff] at hs
    obtain ⟨ch, hc, rfl⟩ := hs
    obtain ⟨h1, h2, h3⟩ := hlaw.other _ _ _ (by simpa using ho) hc
    exact ⟨[], a, ls, by simp, rfl, { hi with
      hand := fun d todo hd => ⟨h1 d (hi.hand d todo hd).1, h3 (hi.hand d todo hd).2⟩
      taken := by rw [h2]; exact hi.taken }⟩

theorem Inv.take {emitted : C.σ → List D} {n : String} {c : Bool} {s s' : St C} {a : Abs (Msg D Empty)} {ls : List Lst} (hi : Inv emitted n s a ls)
    (hs : step n c s .take = some s') : Good emitted n s s' a := by
  simp only [step] at hs
  split at hs
  · rename_i d hd hh
    split at hs
    · rename_i hal
      simp only [Option.some.injEq] at hs
      subst hs
      have hcur := hi.cur
      rw [hd] at hcur
      match hc : a.cur with
      | some y => rw [hc] at hcur; exact hcur.elim
      | none =>
        have hh' : s.em.handlers n = ls.map fun x => ⟨x.id, x.cb, x.once⟩ := by
          rw [hi.rep.handlers, List.filter_eq_self.mpr (fun x hx => by simp [hi.sub x hx])]
        refine ⟨[.start n (some (.ev d))], { a with cur := some (n, .ev d, a.live n) }, ls, rfl, by simp [Abs.run, Abs.next, hc], ?_⟩
        refine { hi with cur := ⟨rfl, rfl, ?_, ?_⟩, hand := ?_, taken := ?_ }
        · have := hi.nos.2
          rw [hi.live, List.map_map] at this
          rw [hh', List.map_map]
          exact this
        · rw [hh', hi.live]
          have : ∀ l : List Lst, (∀ x ∈ l, x ∈ ls) → List.Forall₂ (TE ls) (l.map fun x => ⟨x.id, x.cb, x.once⟩) (l.map ent) := by
            intro l
            induction l with
            | nil => intro _; exact .nil
            | cons x l ih =>
              intro hx
              refine .cons ⟨rfl, ?_, ?_, fun ho => ⟨x, hx x List.mem_cons_self, rfl, rfl, ho⟩⟩ (ih fun y hy => hx y (List.mem_cons_of_mem _ hy))
              · simp only [ent]; split <;> nofun
              · simp only [ent]; split <;> simp_all
          exact this ls fun _ h => h
        · intro d' todo h
          simp only [Option.some.injEq, Prod.mk.injEq] at h
          obtain ⟨rfl, _⟩ := h
          exact ⟨hh, hal⟩
        · rw [takenUp_append, hi.taken, hd]; simp [takenUp]
    · cases hs
  · cases hs

theorem Inv.fin {emitted : C.σ → List D} (hlaw : Lawful C emitted) {n : String} {c : Bool} {s s' : St C} {a : Abs (Msg D Empty)} {ls : List Lst} (hi : Inv emitted n s a ls)
    (hs : step n c s .fin = some s') : Good emitted n s s' a := by
  simp only [step] at hs
  split at hs
  · rename_i d hd
    rw [Option.map_eq_some_iff] at hs
    obtain ⟨ch, hc, rfl⟩ := hs
    obtain ⟨d', h1, h2⟩ := hlaw.emit _ _ hc
    have h3 := (hi.hand d [] hd).1
    rw [h1] at h3; cases h3
    have hcur := hi.cur
    rw [hd] at hcur
    match hcc : a.cur with
    | none => rw [hcc] at hcur; exact hcur.elim
    | some (n', m, ents) =>
      rw [hcc] at hcur
      obtain ⟨rfl, rfl, _, h4⟩ := hcur
      cases h4
      refine ⟨[.fin], { a with cur := none }, ls, rfl, by simp [Abs.run, Abs.next, hcc], { hi with cur := trivial, hand := nofun, taken := ?_ }⟩
      rw [takenUp_append, hi.taken, h2, hd]; simp [takenUp]
  · cases hs

theorem Inv.call {emitted : C.σ → List D} (hlaw : Lawful C emitted) {n : String} {c : Bool} {s s' : St C} {a : Abs (Msg D Empty)} {ls : List Lst} (hi : Inv emitted n s a ls)
    {ret : Bool} (hs : step n c s (.call ret) = some s') : Good emitted n s s' a := by
  simp only [step] at hs
  split at hs
  · rename_i d h rest hd
    have hcur := hi.cur
    rw [hd] at hcur
    match hc : a.cur with
    | none => rw [hc] at hcur; exact hcur.elim
    | some (n', m', ents) =>
      rw [hc] at hcur
      obtain ⟨rfl, rfl, h2, h3⟩ := hcur
      cases h3 with
      | @cons _ e _ es hte hrest =>
      obtain ⟨t1, t2, t3, t4⟩ := hte
      have hsuit : suits e.kind (.ev d : Msg D Empty) = true := by
        cases hk : e.kind with
        | exec => exact absurd hk t2
        | named l => rfl
        | once => rfl
      simp only [List.map_cons, List.nodup_cons] at h2
      split at hs
      · rename_i hret
        subst hret
        simp only [thrown] at hs
        rw [Option.map_eq_some_iff] at hs
        obtain ⟨ch, hch, rfl⟩ := hs
        obtain ⟨d', g1, g2⟩ := hlaw.throw _ _ hch
        have g3 := (hi.hand d _ hd).1
        rw [g1] at g3; cases g3
        refine ⟨[.call h.cb (.ev d) false], { a with cur := none }, ls, rfl, ?_, { hi with cur := trivial, hand := nofun, taken := ?_ }⟩
        · simp only [Abs.run, Abs.next, hc, hsuit, t1.symm, and_self, if_true]; simp
        · rw [takenUp_append, hi.taken, g2, hd]; simp [takenUp]
      · rename_i hret
        have hret : ret = true := by simpa using hret
        subst hret
        have hhand : ∀ (d' : D) (todo : List Handler), (some (d, rest) : Option (D × List Handler)) = some (d', todo) → C.hand s.ch = some d' ∧ C.alive s.ch = true := by
          intro d' todo e
          cases e
          exact hi.hand d _ hd
        split at hs
        · rename_i ho
          obtain ⟨x, x1, x2, x3, x4⟩ := t4 ho
          obtain ⟨em, he, hrep⟩ := hi.rep.remove c x1
          rw [x2] at he
          simp only [he, Option.some.injEq] at hs
          subst hs
          have hek : e.kind = .once := t3.mp ho
          have hnod : (ls.map Lst.cb).Nodup := by
            have := hi.nos.2
            rw [hi.live, List.map_map] at this
            exact this
          refine ⟨[.call h.cb (.ev d) true], { a with cur := some (n', .ev d, es), live := upd a.live n' ((a.live n').filter fun y => decide (y.no ≠ h.cb)) },
            ls.filter fun y => decide (y.id ≠ x.id), rfl, ?_, ?_⟩
          · have t1 : e.no = h.cb := t1.symm
            rw [hek] at hsuit
            simp only [Abs.run, Abs.next, hc, t1, hek, hsuit, and_self, if_true]
          · constructor
            · exact hi.cnt
            · exact hrep
            · simp only [upd_same, hi.live]
              rw [List.filter_map]
              congr 1
              apply List.filter_congr
              intro y hy
              rw [Bool.eq_iff_iff]
              rw [decide_eq_true_eq]
              simp only [Function.comp]
              rw [decide_eq_true_eq, not_iff_not]
              simp only [ent]
              constructor
              · intro e'
                rw [List.inj_on_of_nodup_map hnod hy x1 (by rw [e', x3])]
              · intro e'
                rw [id_inj hi.rep hy x1 e', x3]
            · exact fun y hy => hi.sub y (List.mem_filter.mp hy).1
            · refine ⟨fun y hy hyo => hi.map.1 y (List.mem_filter.mp hy).1 hyo, fun m' id hm => ?_⟩
              obtain ⟨y, hy, hyo, hyl, hyi⟩ := hi.map.2 m' id hm
              refine ⟨y, List.mem_filter.mpr ⟨hy, ?_⟩, hyo, hyl, hyi⟩
              rw [decide_eq_true_eq]
              intro e'
              rw [id_inj hi.rep hy x1 e', x4] at hyo; cases hyo
            · simp only [upd_same]; exact nos_filter hi.nos _
            · refine Cur.mono (ls := ls) ⟨rfl, rfl, h2.2, hrest⟩ ?_
              intro dv hdv t ht hto y hy hyc hyo
              cases hdv
              refine List.mem_filter.mpr ⟨hy, ?_⟩
              rw [decide_eq_true_eq]
              intro e1
              have := id_inj hi.rep hy x1 e1
              subst this
              exact h2.1 (by rw [← x3, hyc]; exact List.mem_map.mpr ⟨t, ht, rfl⟩)
            · exact hhand
            · rw [takenUp_append, hi.taken, hd]; simp [takenUp]
        · rename_i ho
          simp only [Option.some.injEq] at hs
          subst hs
          have hek : e.kind ≠ .once := fun e1 => ho (t3.mpr e1)
          refine ⟨[.call h.cb (.ev d) true], { a with cur := some (n', .ev d, es) }, ls, rfl, ?_, { hi with cur := ⟨rfl, rfl, h2.2, hrest⟩, hand := hhand, taken := ?_ }⟩
          · simp only [Abs.run, Abs.next, hc, hsuit, t1.symm, and_self, if_true, if_neg hek]
          · rw [takenUp_append, hi.taken, hd]; simp [takenUp]
  · cases hs

theorem Inv.step {emitted : C.σ → List D} (hlaw : Lawful C emitted) {n : String} {c : Bool} {s s' : St C} {a : Abs (Msg D Empty)} {ls : List Lst} (hi : Inv emitted n s a ls)
    {x : Act C} (hok : Ok s x) (hs : MemD.step n c s x = some s') : Good emitted n s s' a := by
  cases x with
  | reg l => exact hi.reg hok.2.1 hok.2.2 hs
  | once => exact hi.once hok.2 hs
  | rem l => exact hi.rem hs
  | ch x => exact hi.ch hlaw hs
  | take => exact hi.take hs
  | call ret => exact hi.call hlaw hs
  | fin => exact hi.fin hlaw hs

theorem Reach.inv {emitted : C.σ → List D} (hlaw : Lawful C emitted) {n : String} {c : Bool} {kind : Kind} {s : St C} (h : Reach n c kind s) :
    ∃ a ls, (Abs.init : Abs (Msg D Empty)).run s.hist = some a ∧ Inv emitted n s a ls := by
  induction h with
  | init => exact ⟨.init, [], rfl, Inv.init hlaw n kind⟩
  | step _ hok hs ih =>
    obtain ⟨a, ls, h1, h2⟩ := ih
    obtain ⟨evs, a', ls', h3, h4, h5⟩ := h2.step hlaw hok hs
    exact ⟨a', ls', by rw [h3, Abs.run_append, h1]; exact h4, h5⟩

end Verif.MemD
