import Verif.Model.ProviderMaps

/-!
C64: the objects a provider hands out by name.

Specification: `pubUses calls` lists, in order, every call that asks for a publisher (the first `getScheduler` asks for one of `std::function<void()>`)
with its name, type and parameters.  It does not mention the maps of the provider.
-/

namespace Verif.Prov
open Verif

variable {Ty Par : Type}

/-- The requests for publishers in a list of calls; `seen`: a scheduler has been asked for before. -/
def pubUses (fn : Ty) (d : Par) : Bool → List (Call Ty Par) → List (String × Ty × Par)
  | _, [] => []
  | b, .getPublisher t n p :: cs => (n, t, p) :: pubUses fn d b cs
  | false, .getScheduler n :: cs => (schedName n, fn, d) :: pubUses fn d true cs
  | b, _ :: cs => pubUses fn d b cs

/-- Calls of a history. -/
abbrev calls (h : List (Call Ty Par × Ret)) : List (Call Ty Par) := h.map (·.1)

theorem calls_append (h : List (Call Ty Par × Ret)) (a : Call Ty Par) (r : Ret) : calls (h ++ [(a, r)]) = calls h ++ [a] := by simp [calls]

def seenSched (cs : List (Call Ty Par)) : Bool := cs.any fun | .getScheduler _ => true | _ => false

theorem pubUses_append (fn : Ty) (d : Par) (b : Bool) (cs cs' : List (Call Ty Par)) :
    pubUses fn d b (cs ++ cs') = pubUses fn d b cs ++ pubUses fn d (b || seenSched cs) cs' := by
  induction cs generalizing b with
  | nil => simp [pubUses, seenSched]
  | cons c cs ih =>
    cases c <;> cases b <;> simp [pubUses, ih, seenSched]

theorem lookup_put (m : Map) (n k : String) (i : Nat) : (m.put n i).lookup k = if k = n then some i else m.lookup k := by
  unfold Map.put
  rw [List.lookup_cons]
  by_cases h : k = n
  · simp [h]
  · have : (k == n) = false := by simp [h]
    rw [this]; simp only [h, if_false]
    induction m with
    | nil => rfl
    | cons e m ih =>
      obtain ⟨a, b⟩ := e
      by_cases ha : a = n
      · subst ha; simp [ih, List.lookup_cons, this]
      · by_cases hk : k = a
        · subst hk; simp [ha, List.lookup_cons]
        · have : (k == a) = false := by simp [hk]
          simp [ha, List.lookup_cons, this, ih]

theorem lookup_append_some {α : Type} {l l' : List (String × α)} {n : String} {x : α} (h : l.lookup n = some x) : (l ++ l').lookup n = some x := by
  rw [List.lookup_append, h]; rfl

structure Inv (fn : Ty) (d : Par) (h : List (Call Ty Par × Ret)) (s : St Ty Par) : Prop where
  /-- the entry for a name is a publisher made by the first request for it -/
  pub : ∀ n i, s.pubs.lookup n = some i → ∃ t p c, s.objs[i]? = some ⟨.publisher t p, n, c⟩ ∧ (pubUses fn d false (calls h)).lookup n = some (t, p)
  pubNone : ∀ n, s.pubs.lookup n = none → (pubUses fn d false (calls h)).lookup n = none
  sub : ∀ n i, s.subs.lookup n = some i →
    (∃ t p c, s.objs[i]? = some ⟨.subscriber t p, n, c⟩ ∧ ∃ i, (Call.getSubscriber t n p, Ret.obj i) ∈ h) ∨
    ∃ c, s.objs[i]? = some ⟨.exec, n, c⟩ ∧ ∃ m, schedName m = n ∧ .getScheduler m ∈ calls h
  gotPub : ∀ t n p i, (Call.getPublisher t n p, Ret.obj i) ∈ h → s.pubs.lookup n = some i
  gotSub : ∀ t n p i, (Call.getSubscriber t n p, Ret.obj i) ∈ h → s.subs.lookup n = some i ∨ ∃ m, schedName m = n ∧ .getScheduler m ∈ calls h
  schedSome : ∀ i, s.sched = some i → seenSched (calls h) = true ∧
    ∃ m e c, .getScheduler m ∈ calls h ∧ s.pubs.lookup (schedName m) = some i ∧ s.subs.lookup (schedName m) = some e ∧ s.objs[e]? = some ⟨.exec, schedName m, c⟩
  schedNone : s.sched = none → seenSched (calls h) = false
  gotSched : ∀ m r, (Call.getScheduler m, r) ∈ h → ∃ i, r = .sched i ∧ s.sched = some i
  pubAlive : ∀ n i, s.pubs.lookup n = some i → i ∉ s.dead
  subAlive : ∀ n i, s.subs.lookup n = some i → i ∉ s.dead
  deadLt : ∀ i ∈ s.dead, i < s.objs.length

theorem seenSched_append (cs cs' : List (Call Ty Par)) : seenSched (cs ++ cs') = (seenSched cs || seenSched cs') := by
  simp [seenSched]

theorem Inv.lt {fn : Ty} {d : Par} {h : List (Call Ty Par × Ret)} {s : St Ty Par} (hi : Inv fn d h s) :
    (∀ n i, s.pubs.lookup n = some i → i < s.objs.length) ∧ ∀ n i, s.subs.lookup n = some i → i < s.objs.length := by
  constructor
  · intro n i hl
    obtain ⟨t, p, c, ho, -⟩ := hi.pub n i hl
    exact (List.getElem?_eq_some_iff.mp ho).1
  · intro n i hl
    rcases hi.sub n i hl with ⟨t, p, c, ho, -⟩ | ⟨c, ho, -⟩ <;> exact (List.getElem?_eq_some_iff.mp ho).1

theorem Inv.init (fn : Ty) (d : Par) (c : Option Nat) : Inv fn d [] (St.init c : St Ty Par) := by
  constructor <;> simp [St.init, pubUses, seenSched]

theorem getElem?_snoc {α : Type} {l : List α} {i : Nat} {x y : α} (h : l[i]? = some x) : (l ++ [y])[i]? = some x := by
  rw [List.getElem?_append_left (List.getElem?_eq_some_iff.mp h).1, h]

theorem getElem?_snoc_last {α : Type} (l : List α) (y : α) : (l ++ [y])[l.length]? = some y := by simp

theorem lookup_snoc_none {α : Type} {l : List (String × α)} {n k : String} {x : α} (h : l.lookup k = none) (hk : k ≠ n) : (l ++ [(n, x)]).lookup k = none := by
  rw [List.lookup_append, h]
  have : (k == n) = false := by simp [hk]
  simp [List.lookup_cons, this]

theorem lookup_snoc_self {α : Type} {l : List (String × α)} {n : String} {x : α} (h : l.lookup n = none) : (l ++ [(n, x)]).lookup n = some x := by
  rw [List.lookup_append, h]; simp

section
variable {fn : Ty} {d : Par} {h : List (Call Ty Par × Ret)} {s : St Ty Par}

/-- A call that asks for nothing. -/
theorem Inv.quiet (hi : Inv fn d h s) {a : Call Ty Par} (ha : a = .start ∨ a = .stop ∨ ∃ c, a = .setContainer c)
    (r b c att) : Inv fn d (h ++ [(a, r)]) { s with running := b, cont := c, attached := att } := by
  have hu : pubUses fn d false (calls (h ++ [(a, r)])) = pubUses fn d false (calls h) := by
    rw [calls_append, pubUses_append]
    rcases ha with rfl | rfl | ⟨c, rfl⟩ <;> cases seenSched (calls h) <;> simp [pubUses]
  have hss : seenSched (calls (h ++ [(a, r)])) = seenSched (calls h) := by
    rw [calls_append, seenSched_append]
    rcases ha with rfl | rfl | ⟨c, rfl⟩ <;> simp [seenSched]
  have hmem : ∀ (x : Call Ty Par) q, (x, q) ∈ h ++ [(a, r)] → x ≠ a → (x, q) ∈ h := by
    intro x q hx hxa
    rcases List.mem_append.mp hx with hx | hx
    · exact hx
    · simp at hx; exact absurd hx.1 hxa
  have hsub : ∀ x ∈ calls h, x ∈ calls (h ++ [(a, r)]) := fun x hx => by rw [calls_append]; exact List.mem_append_left _ hx
  have hsub' : ∀ e ∈ h, e ∈ h ++ [(a, r)] := fun e he => List.mem_append_left _ he
  exact {
    pub := by rw [hu]; exact hi.pub
    pubNone := by rw [hu]; exact hi.pubNone
    sub := fun n i hl => by
      rcases hi.sub n i hl with ⟨t, p, c, ho, j, hj⟩ | ⟨c, ho, m, hm, hmm⟩
      · exact .inl ⟨t, p, c, ho, j, hsub' _ hj⟩
      · exact .inr ⟨c, ho, m, hm, hsub _ hmm⟩
    gotPub := fun t n p i hx => hi.gotPub t n p i (hmem _ _ hx (by rcases ha with rfl | rfl | ⟨c, rfl⟩ <;> nofun))
    gotSub := fun t n p i hx => by
      rcases hi.gotSub t n p i (hmem _ _ hx (by rcases ha with rfl | rfl | ⟨c, rfl⟩ <;> nofun)) with hl | ⟨m, hm, hmm⟩
      · exact .inl hl
      · exact .inr ⟨m, hm, hsub _ hmm⟩
    schedSome := fun i hs => by
      obtain ⟨h1, m, e, c, hm, h2, h3, h4⟩ := hi.schedSome i hs
      exact ⟨by rw [hss]; exact h1, m, e, c, hsub _ hm, h2, h3, h4⟩
    schedNone := fun hs => by rw [hss]; exact hi.schedNone hs
    gotSched := fun m q hx => hi.gotSched m q (hmem _ _ hx (by rcases ha with rfl | rfl | ⟨c, rfl⟩ <;> nofun))
    pubAlive := hi.pubAlive
    subAlive := hi.subAlive
    deadLt := hi.deadLt }

theorem Inv.pubStep (hi : Inv fn d h s) (t : Ty) (n : String) (p : Par) :
    Inv fn d (h ++ [(.getPublisher t n p, .obj (getPublisher s t n p).2)]) (getPublisher s t n p).1 := by
  have hu : ∀ r, pubUses fn d false (calls (h ++ [(.getPublisher t n p, r)])) = pubUses fn d false (calls h) ++ [(n, t, p)] := by
    intro r; rw [calls_append, pubUses_append]; cases seenSched (calls h) <;> simp [pubUses]
  have hss : ∀ r, seenSched (calls (h ++ [(.getPublisher t n p, r)])) = seenSched (calls h) := by
    intro r; rw [calls_append, seenSched_append]; simp [seenSched]
  have hmem : ∀ (x : Call Ty Par) q r, (x, q) ∈ h ++ [(.getPublisher t n p, r)] → (x, q) ∈ h ∨ (x = .getPublisher t n p ∧ q = r) := by
    intro x q r hx
    rcases List.mem_append.mp hx with hx | hx
    · exact .inl hx
    · simp at hx; exact .inr hx
  have hsub : ∀ r, ∀ x ∈ calls h, x ∈ calls (h ++ [(.getPublisher t n p, r)]) :=
    fun r x hx => by rw [calls_append]; exact List.mem_append_left _ hx
  unfold getPublisher
  cases hl : s.pubs.lookup n with
  | some i =>
    exact {
      pub := fun k j hk => by
        obtain ⟨t', p', c, ho, hp⟩ := hi.pub k j hk
        exact ⟨t', p', c, ho, by rw [hu]; exact lookup_append_some hp⟩
      pubNone := fun k hk => by
        rw [hu]
        refine lookup_snoc_none (hi.pubNone k hk) ?_
        rintro rfl; rw [hl] at hk; cases hk
      sub := fun k j hk => by
        rcases hi.sub k j hk with ⟨t, p, c, ho, q, hj⟩ | ⟨c, ho, m, hm, hmm⟩
        · exact .inl ⟨t, p, c, ho, q, List.mem_append_left _ hj⟩
        · exact .inr ⟨c, ho, m, hm, hsub _ _ hmm⟩
      gotPub := fun t' n' p' j hx => by
        rcases hmem _ _ _ hx with hx | ⟨h1, h2⟩
        · exact hi.gotPub _ _ _ _ hx
        · cases h1; cases h2; exact hl
      gotSub := fun t' n' p' j hx => by
        rcases hmem _ _ _ hx with hx | ⟨h1, h2⟩
        · rcases hi.gotSub t' n' p' j hx with hl | ⟨m, hm, hmm⟩
          · exact .inl hl
          · exact .inr ⟨m, hm, hsub _ _ hmm⟩
        · cases h1
      schedSome := fun j hs => by
        obtain ⟨h1, m, e, c, hm, h2⟩ := hi.schedSome j hs
        exact ⟨by rw [hss]; exact h1, m, e, c, hsub _ _ hm, h2⟩
      schedNone := fun hs => by rw [hss]; exact hi.schedNone hs
      gotSched := fun m q hx => by
        rcases hmem _ _ _ hx with hx | ⟨h1, h2⟩
        · exact hi.gotSched m q hx
        · cases h1
      pubAlive := hi.pubAlive
      subAlive := hi.subAlive
      deadLt := hi.deadLt }
  | none =>
    have hlk := fun k => lookup_put s.pubs n k s.objs.length
    exact {
      pub := fun k j hk => by
        rw [show ({ s.new (.publisher t p) n with pubs := s.pubs.put n s.objs.length } : St Ty Par).pubs = s.pubs.put n s.objs.length from rfl, hlk] at hk
        split at hk
        · next e =>
          subst e; cases hk
          exact ⟨t, p, s.cont, getElem?_snoc_last _ _, by rw [hu]; exact lookup_snoc_self (hi.pubNone k hl)⟩
        · obtain ⟨t', p', c, ho, hp⟩ := hi.pub k j hk
          exact ⟨t', p', c, getElem?_snoc ho, by rw [hu]; exact lookup_append_some hp⟩
      pubNone := fun k hk => by
        rw [show ({ s.new (.publisher t p) n with pubs := s.pubs.put n s.objs.length } : St Ty Par).pubs = s.pubs.put n s.objs.length from rfl, hlk] at hk
        split at hk
        · cases hk
        · next e => rw [hu]; exact lookup_snoc_none (hi.pubNone k hk) e
      sub := fun k j hk => by
        rcases hi.sub k j hk with ⟨t, p, c, ho, q, hj⟩ | ⟨c, ho, m, hm, hmm⟩
        · exact .inl ⟨t, p, c, getElem?_snoc ho, q, List.mem_append_left _ hj⟩
        · exact .inr ⟨c, getElem?_snoc ho, m, hm, hsub _ _ hmm⟩
      gotPub := fun t' n' p' j hx => by
        show (s.pubs.put n s.objs.length).lookup n' = some j
        rw [hlk]
        rcases hmem _ _ _ hx with hx | ⟨h1, h2⟩
        · have := hi.gotPub _ _ _ _ hx
          split
          · next e => subst e; rw [hl] at this; cases this
          · exact this
        · cases h1; cases h2; simp
      gotSub := fun t' n' p' j hx => by
        rcases hmem _ _ _ hx with hx | ⟨h1, h2⟩
        · rcases hi.gotSub t' n' p' j hx with hl | ⟨m, hm, hmm⟩
          · exact .inl hl
          · exact .inr ⟨m, hm, hsub _ _ hmm⟩
        · cases h1
      schedSome := fun j hs => by
        obtain ⟨h1, m, e, c, hm, h2, h3, h4⟩ := hi.schedSome j hs
        refine ⟨by rw [hss]; exact h1, m, e, c, hsub _ _ hm, ?_, h3, getElem?_snoc h4⟩
        show (s.pubs.put n s.objs.length).lookup _ = _
        rw [hlk]; split
        · next e => rw [e, hl] at h2; cases h2
        · exact h2
      schedNone := fun hs => by rw [hss]; exact hi.schedNone hs
      gotSched := fun m q hx => by
        rcases hmem _ _ _ hx with hx | ⟨h1, h2⟩
        · exact hi.gotSched m q hx
        · cases h1
      pubAlive := fun k j hk => by
        rw [show ({ s.new (.publisher t p) n with pubs := s.pubs.put n s.objs.length } : St Ty Par).pubs = s.pubs.put n s.objs.length from rfl, hlk] at hk
        split at hk
        · cases hk; intro hd; exact Nat.lt_irrefl _ (hi.deadLt _ hd)
        · exact hi.pubAlive k j hk
      subAlive := hi.subAlive
      deadLt := fun j hj => by
        show j < (s.objs ++ [_]).length
        have := hi.deadLt j hj
        simp; omega }

theorem Inv.subStep (hi : Inv fn d h s) (t : Ty) (n : String) (p : Par) :
    Inv fn d (h ++ [(.getSubscriber t n p, .obj (getSubscriber s t n p).2)]) (getSubscriber s t n p).1 := by
  have hu : ∀ r, pubUses fn d false (calls (h ++ [(.getSubscriber t n p, r)])) = pubUses fn d false (calls h) := by
    intro r; rw [calls_append, pubUses_append]; cases seenSched (calls h) <;> simp [pubUses]
  have hss : ∀ r, seenSched (calls (h ++ [(.getSubscriber t n p, r)])) = seenSched (calls h) := by
    intro r; rw [calls_append, seenSched_append]; simp [seenSched]
  have hmem : ∀ (x : Call Ty Par) q r, (x, q) ∈ h ++ [(.getSubscriber t n p, r)] → (x, q) ∈ h ∨ (x = .getSubscriber t n p ∧ q = r) := by
    intro x q r hx
    rcases List.mem_append.mp hx with hx | hx
    · exact .inl hx
    · simp at hx; exact .inr hx
  have hsub : ∀ r, ∀ x ∈ calls h, x ∈ calls (h ++ [(.getSubscriber t n p, r)]) :=
    fun r x hx => by rw [calls_append]; exact List.mem_append_left _ hx
  unfold getSubscriber
  cases hl : s.subs.lookup n with
  | some i =>
    exact {
      pub := by rw [hu]; exact hi.pub
      pubNone := by rw [hu]; exact hi.pubNone
      sub := fun k j hk => by
        rcases hi.sub k j hk with ⟨t, p, c, ho, q, hj⟩ | ⟨c, ho, m, hm, hmm⟩
        · exact .inl ⟨t, p, c, ho, q, List.mem_append_left _ hj⟩
        · exact .inr ⟨c, ho, m, hm, hsub _ _ hmm⟩
      gotPub := fun t' n' p' j hx => by
        rcases hmem _ _ _ hx with hx | ⟨h1, h2⟩
        · exact hi.gotPub _ _ _ _ hx
        · cases h1
      gotSub := fun t' n' p' j hx => by
        rcases hmem _ _ _ hx with hx | ⟨h1, h2⟩
        · rcases hi.gotSub t' n' p' j hx with hl | ⟨m, hm, hmm⟩
          · exact .inl hl
          · exact .inr ⟨m, hm, hsub _ _ hmm⟩
        · cases h1; cases h2; exact .inl hl
      schedSome := fun j hs => by
        obtain ⟨h1, m, e, c, hm, h2⟩ := hi.schedSome j hs
        exact ⟨by rw [hss]; exact h1, m, e, c, hsub _ _ hm, h2⟩
      schedNone := fun hs => by rw [hss]; exact hi.schedNone hs
      gotSched := fun m q hx => by
        rcases hmem _ _ _ hx with hx | ⟨h1, h2⟩
        · exact hi.gotSched m q hx
        · cases h1
      pubAlive := hi.pubAlive
      subAlive := hi.subAlive
      deadLt := hi.deadLt }
  | none =>
    have hlk := fun k => lookup_put s.subs n k s.objs.length
    exact {
      pub := fun k j hk => by
        obtain ⟨t', p', c, ho, hp⟩ := hi.pub k j hk
        exact ⟨t', p', c, getElem?_snoc ho, by rw [hu]; exact hp⟩
      pubNone := by rw [hu]; exact hi.pubNone
      sub := fun k j hk => by
        rw [show ({ s.new (.subscriber t p) n with subs := s.subs.put n s.objs.length } : St Ty Par).subs = s.subs.put n s.objs.length from rfl, hlk] at hk
        split at hk
        · next e =>
          subst e; cases hk
          exact .inl ⟨t, p, s.cont, getElem?_snoc_last _ _, _, List.mem_append_right _ (List.mem_singleton.mpr rfl)⟩
        · rcases hi.sub k j hk with ⟨t, p, c, ho, q, hj⟩ | ⟨c, ho, m, hm, hmm⟩
          · exact .inl ⟨t, p, c, getElem?_snoc ho, q, List.mem_append_left _ hj⟩
          · exact .inr ⟨c, getElem?_snoc ho, m, hm, hsub _ _ hmm⟩
      gotPub := fun t' n' p' j hx => by
        rcases hmem _ _ _ hx with hx | ⟨h1, h2⟩
        · exact hi.gotPub _ _ _ _ hx
        · cases h1
      gotSub := fun t' n' p' j hx => by
        show (s.subs.put n s.objs.length).lookup n' = some j ∨ _
        rw [hlk]
        rcases hmem _ _ _ hx with hx | ⟨h1, h2⟩
        · rcases hi.gotSub t' n' p' j hx with hl' | ⟨m, hm, hmm⟩
          · left; split
            · next e => subst e; rw [hl] at hl'; cases hl'
            · exact hl'
          · exact .inr ⟨m, hm, hsub _ _ hmm⟩
        · cases h1; cases h2; left; simp
      schedSome := fun j hs => by
        obtain ⟨h1, m, e, c, hm, h2, h3, h4⟩ := hi.schedSome j hs
        refine ⟨by rw [hss]; exact h1, m, e, c, hsub _ _ hm, h2, ?_, getElem?_snoc h4⟩
        show (s.subs.put n s.objs.length).lookup _ = _
        rw [hlk]; split
        · next e => rw [e, hl] at h3; cases h3
        · exact h3
      schedNone := fun hs => by rw [hss]; exact hi.schedNone hs
      gotSched := fun m q hx => by
        rcases hmem _ _ _ hx with hx | ⟨h1, h2⟩
        · exact hi.gotSched m q hx
        · cases h1
      pubAlive := hi.pubAlive
      subAlive := fun k j hk => by
        rw [show ({ s.new (.subscriber t p) n with subs := s.subs.put n s.objs.length } : St Ty Par).subs = s.subs.put n s.objs.length from rfl, hlk] at hk
        split at hk
        · cases hk; intro hd; exact Nat.lt_irrefl _ (hi.deadLt _ hd)
        · exact hi.subAlive k j hk
      deadLt := fun j hj => by
        show j < (s.objs ++ [_]).length
        have := hi.deadLt j hj
        simp; omega }

theorem Inv.schedStep (hi : Inv fn d h s) (m : String) :
    Inv fn d (h ++ [(.getScheduler m, .sched (getScheduler fn d s m).2)]) (getScheduler fn d s m).1 := by
  have hmem : ∀ (x : Call Ty Par) q r, (x, q) ∈ h ++ [(.getScheduler m, r)] → (x, q) ∈ h ∨ (x = .getScheduler m ∧ q = r) := by
    intro x q r hx
    rcases List.mem_append.mp hx with hx | hx
    · exact .inl hx
    · simp at hx; exact .inr hx
  have hsub : ∀ r, ∀ x ∈ calls h, x ∈ calls (h ++ [(.getScheduler m, r)]) :=
    fun r x hx => by rw [calls_append]; exact List.mem_append_left _ hx
  have hself : ∀ r, Call.getScheduler m ∈ calls (h ++ [(.getScheduler m, r)]) := fun r => by rw [calls_append]; simp
  have hss : ∀ r, seenSched (calls (h ++ [(.getScheduler m, r)])) = true := by
    intro r; rw [calls_append, seenSched_append]; simp [seenSched]
  unfold getScheduler
  cases hs : s.sched with
  | some i =>
    have hu : ∀ r, pubUses fn d false (calls (h ++ [(.getScheduler m, r)])) = pubUses fn d false (calls h) := by
      intro r; rw [calls_append, pubUses_append, (hi.schedSome i hs).1]; simp [pubUses]
    exact {
      pub := by rw [hu]; exact hi.pub
      pubNone := by rw [hu]; exact hi.pubNone
      sub := fun k j hk => by
        rcases hi.sub k j hk with ⟨t, p, c, ho, q, hj⟩ | ⟨c, ho, m, hm, hmm⟩
        · exact .inl ⟨t, p, c, ho, q, List.mem_append_left _ hj⟩
        · exact .inr ⟨c, ho, m, hm, hsub _ _ hmm⟩
      gotPub := fun t' n' p' j hx => by
        rcases hmem _ _ _ hx with hx | ⟨h1, h2⟩
        · exact hi.gotPub _ _ _ _ hx
        · cases h1
      gotSub := fun t' n' p' j hx => by
        rcases hmem _ _ _ hx with hx | ⟨h1, h2⟩
        · rcases hi.gotSub t' n' p' j hx with hl | ⟨m, hm, hmm⟩
          · exact .inl hl
          · exact .inr ⟨m, hm, hsub _ _ hmm⟩
        · cases h1
      schedSome := fun j hs => by
        obtain ⟨h1, m, e, c, hm, h2⟩ := hi.schedSome j hs
        exact ⟨hss _, m, e, c, hsub _ _ hm, h2⟩
      schedNone := fun h' => by rw [hs] at h'; cases h'
      gotSched := fun m q hx => by
        rcases hmem _ _ _ hx with hx | ⟨h1, h2⟩
        · exact hi.gotSched m q hx
        · cases h1; exact ⟨i, h2, hs⟩
      pubAlive := hi.pubAlive
      subAlive := hi.subAlive
      deadLt := hi.deadLt }
  | none =>
    have hu : ∀ r, pubUses fn d false (calls (h ++ [(.getScheduler m, r)])) = pubUses fn d false (calls h) ++ [(schedName m, fn, d)] := by
      intro r; rw [calls_append, pubUses_append, hi.schedNone hs]; simp [pubUses]
    have hno : ∀ k r, (Call.getScheduler k, r) ∉ h := by
      intro k r hk; obtain ⟨i, -, h2⟩ := hi.gotSched k r hk; rw [hs] at h2; cases h2
    have hlk := fun k => lookup_put s.subs (schedName m) k s.objs.length
    have hexec : ∀ k j, (s.subs.put (schedName m) s.objs.length).lookup k = some j → (k = schedName m ∧ j = s.objs.length) ∨ (k ≠ schedName m ∧ s.subs.lookup k = some j) := by
      intro k j hk; rw [hlk] at hk
      split at hk
      · next e => cases hk; exact .inl ⟨e, rfl⟩
      · next e => exact .inr ⟨e, hk⟩
    have hdead : ∀ i, (i ∈ match s.subs.lookup (schedName m) with | some i => s.dead ++ [i] | none => s.dead) ↔
        (i ∈ s.dead ∨ s.subs.lookup (schedName m) = some i) := by
      intro i; split
      · next j hj => rw [hj]; simp [eq_comm]
      · next hj => rw [hj]; simp
    have hsubs : ∀ (objs : List (Obj Ty Par)) r, (∀ (i : Nat) x, (s.objs ++ [⟨.exec, schedName m, s.cont⟩])[i]? = some x → objs[i]? = some x) →
        ∀ k j, (s.subs.put (schedName m) s.objs.length).lookup k = some j →
        (∃ t p c, objs[j]? = some ⟨.subscriber t p, k, c⟩ ∧ ∃ i, (Call.getSubscriber t k p, Ret.obj i) ∈ h ++ [(.getScheduler m, r)]) ∨
        ∃ c, objs[j]? = some ⟨.exec, k, c⟩ ∧ ∃ m', schedName m' = k ∧ .getScheduler m' ∈ calls (h ++ [(.getScheduler m, r)]) := by
      intro objs r hob k j hk
      rcases hexec k j hk with ⟨rfl, rfl⟩ | ⟨-, hk⟩
      · exact .inr ⟨s.cont, hob _ _ (getElem?_snoc_last _ _), m, rfl, hself _⟩
      · rcases hi.sub k j hk with ⟨t, p, c, ho, q, hj⟩ | ⟨c, ho, m', hm, hmm⟩
        · exact .inl ⟨t, p, c, hob _ _ (getElem?_snoc ho), q, List.mem_append_left _ hj⟩
        · exact .inr ⟨c, hob _ _ (getElem?_snoc ho), m', hm, hsub _ _ hmm⟩
    have hgotSub : ∀ r t' n' p' j, (Call.getSubscriber t' n' p', Ret.obj j) ∈ h ++ [(.getScheduler m, r)] →
        (s.subs.put (schedName m) s.objs.length).lookup n' = some j ∨ ∃ m', schedName m' = n' ∧ .getScheduler m' ∈ calls (h ++ [(.getScheduler m, r)]) := by
      intro r t' n' p' j hx
      rcases hmem _ _ _ hx with hx | ⟨h1, h2⟩
      · rcases hi.gotSub t' n' p' j hx with hl | ⟨m', hm, hmm⟩
        · by_cases e : n' = schedName m
          · exact .inr ⟨m, e.symm, hself _⟩
          · left; rw [hlk]; simp [e, hl]
        · exact .inr ⟨m', hm, hsub _ _ hmm⟩
      · cases h1
    have hne : ∀ k i, s.pubs.lookup k = some i → ∀ k', s.subs.lookup k' ≠ some i := by
      intro k i h1 k' h2
      obtain ⟨t, p, c, ho, -⟩ := hi.pub k i h1
      rcases hi.sub k' i h2 with ⟨t', p', c', ho', -⟩ | ⟨c', ho', -⟩ <;> rw [ho] at ho' <;> simp at ho'
    have hsubAlive : ∀ k j, (s.subs.put (schedName m) s.objs.length).lookup k = some j → ¬ (j ∈ s.dead ∨ s.subs.lookup (schedName m) = some j) := by
      intro k j hk hd
      rcases hexec k j hk with ⟨rfl, rfl⟩ | ⟨hk', hk⟩
      · rcases hd with hd | hd
        · exact Nat.lt_irrefl _ (hi.deadLt _ hd)
        · exact Nat.lt_irrefl _ (hi.lt.2 _ _ hd)
      · rcases hd with hd | hd
        · exact hi.subAlive k j hk hd
        · -- two names with one object
          rcases hi.sub k j hk with ⟨t, p, c, ho, -⟩ | ⟨c, ho, -⟩ <;> rcases hi.sub _ j hd with ⟨t', p', c', ho', -⟩ | ⟨c', ho', -⟩ <;>
            (have hn := congrArg (Option.map Obj.name) (ho.symm.trans ho'); simp at hn; exact hk' hn)
    dsimp only
    unfold getPublisher
    cases hl : s.pubs.lookup (schedName m) with
    | some i =>
      simp only [St.new, hl]
      exact {
        pub := fun k j hk => by
          obtain ⟨t', p', c, ho, hp⟩ := hi.pub k j hk
          exact ⟨t', p', c, getElem?_snoc ho, by rw [hu]; exact lookup_append_some hp⟩
        pubNone := fun k hk => by
          rw [hu]
          refine lookup_snoc_none (hi.pubNone k hk) ?_
          rintro rfl; have hk : s.pubs.lookup _ = none := hk; rw [hl] at hk; cases hk
        sub := hsubs _ _ (fun _ _ h => h)
        gotPub := fun t' n' p' j hx => by
          rcases hmem _ _ _ hx with hx | ⟨h1, h2⟩
          · exact hi.gotPub _ _ _ _ hx
          · cases h1
        gotSub := hgotSub _
        schedSome := fun j hj => by
          cases hj
          exact ⟨hss _, m, s.objs.length, s.cont, hself _, hl, by rw [hlk]; simp, getElem?_snoc_last _ _⟩
        schedNone := nofun
        gotSched := fun k q hx => by
          rcases hmem _ _ _ hx with hx | ⟨h1, h2⟩
          · exact absurd hx (hno _ _)
          · exact ⟨i, h2, rfl⟩
        pubAlive := fun k j hk hd => by
          rcases (hdead j).mp hd with hd | hd
          · exact hi.pubAlive k j hk hd
          · exact hne k j hk _ hd
        subAlive := fun k j hk hd => hsubAlive k j hk ((hdead j).mp hd)
        deadLt := fun j hj => by
          show j < (s.objs ++ [_]).length
          have : j < s.objs.length := by
            rcases (hdead j).mp hj with hd | hd
            · exact hi.deadLt j hd
            · exact hi.lt.2 _ _ hd
          simp; omega }
    | none =>
      simp only [St.new, hl]
      have hlp := fun k => lookup_put s.pubs (schedName m) k (s.objs ++ [(⟨.exec, schedName m, s.cont⟩ : Obj Ty Par)]).length
      have hpubs : ∀ k j, (s.pubs.put (schedName m) (s.objs ++ [(⟨.exec, schedName m, s.cont⟩ : Obj Ty Par)]).length).lookup k = some j →
          (k = schedName m ∧ j = (s.objs ++ [(⟨.exec, schedName m, s.cont⟩ : Obj Ty Par)]).length) ∨ (k ≠ schedName m ∧ s.pubs.lookup k = some j) := by
        intro k j hk; rw [hlp] at hk
        split at hk
        · next e => cases hk; exact .inl ⟨e, rfl⟩
        · next e => exact .inr ⟨e, hk⟩
      exact {
        pub := fun k j hk => by
          rcases hpubs k j hk with ⟨rfl, rfl⟩ | ⟨-, hk⟩
          · exact ⟨fn, d, s.cont, getElem?_snoc_last _ _, by rw [hu]; exact lookup_snoc_self (hi.pubNone _ hl)⟩
          · obtain ⟨t', p', c, ho, hp⟩ := hi.pub k j hk
            exact ⟨t', p', c, getElem?_snoc (getElem?_snoc ho), by rw [hu]; exact lookup_append_some hp⟩
        pubNone := fun k hk => by
          have hk := (hlp k).symm.trans hk
          rw [hu]
          split at hk
          · cases hk
          · next e => exact lookup_snoc_none (hi.pubNone k hk) e
        sub := hsubs _ _ (fun _ _ h => getElem?_snoc h)
        gotPub := fun t' n' p' j hx => by
          rcases hmem _ _ _ hx with hx | ⟨h1, h2⟩
          · have := hi.gotPub _ _ _ _ hx
            refine (hlp _).trans ?_
            split
            · next e => rw [e, hl] at this; cases this
            · exact this
          · cases h1
        gotSub := hgotSub _
        schedSome := fun j hj => by
          cases hj
          exact ⟨hss _, m, s.objs.length, s.cont, hself _, by refine (hlp _).trans ?_; simp, by rw [hlk]; simp, getElem?_snoc (getElem?_snoc_last _ _)⟩
        schedNone := nofun
        gotSched := fun k q hx => by
          rcases hmem _ _ _ hx with hx | ⟨h1, h2⟩
          · exact absurd hx (hno _ _)
          · exact ⟨_, h2, rfl⟩
        pubAlive := fun k j hk hd => by
          rcases hpubs k j hk with ⟨rfl, rfl⟩ | ⟨-, hk⟩
          · have : (s.objs ++ [(⟨.exec, schedName m, s.cont⟩ : Obj Ty Par)]).length < s.objs.length := by
              rcases (hdead _).mp hd with hd | hd
              · exact hi.deadLt _ hd
              · exact hi.lt.2 _ _ hd
            rw [List.length_append] at this; omega
          · rcases (hdead j).mp hd with hd | hd
            · exact hi.pubAlive k j hk hd
            · exact hne k j hk _ hd
        subAlive := fun k j hk hd => hsubAlive k j hk ((hdead j).mp hd)
        deadLt := fun j hj => by
          show j < (s.objs ++ [_] ++ [_]).length
          have : j < s.objs.length := by
            rcases (hdead j).mp hj with hd | hd
            · exact hi.deadLt j hd
            · exact hi.lt.2 _ _ hd
          simp; omega }

/-- In `setContainer` the only entries of the maps are those of the scheduler. -/
theorem Inv.only (hi : Inv fn d h s) {i j : Nat} {n : String} {e : String × Nat} (hs : s.sched = some i) (h1 : s.subs = [(n, j)]) (h2 : s.pubs = [e]) :
    e = (n, i) ∧ ∃ c, s.objs[j]? = some ⟨.exec, n, c⟩ := by
  obtain ⟨-, m, k, c, -, h3, h4, h5⟩ := hi.schedSome i hs
  obtain ⟨a, b⟩ := e
  rw [h1] at h4; rw [h2] at h3
  simp only [List.lookup_cons, List.lookup_nil] at h3 h4
  split at h3 <;> try cases h3
  split at h4 <;> try cases h4
  next e1 _ e2 =>
    have e1 : schedName m = a := by simpa using e1
    have e2 : schedName m = n := by simpa using e2
    subst e1; subst e2
    exact ⟨rfl, c, h5⟩

theorem Inv.contStep (hi : Inv fn d h s) (c : Option Nat) : Inv fn d (h ++ [(.setContainer c, .unit)]) (setContainer fn d s c) := by
  unfold setContainer
  split
  · exact hi.quiet (.inr (.inr ⟨c, rfl⟩)) _ s.running s.cont s.attached
  · dsimp only
    split
    · next i n j e c' hsch h1 h2 =>
      have he := (hi.only hsch h1 h2).1
      subst he
      have hg : getPublisher { s with cont := some c' } fn n d = ({ s with cont := some c' }, i) := by
        unfold getPublisher
        rw [show ({ s with cont := some c' } : St Ty Par).pubs.lookup n = some i from by show s.pubs.lookup n = _; rw [h2]; simp]
      rw [hg]
      exact hi.quiet (.inr (.inr ⟨_, rfl⟩)) _ s.running (some c') _
    · exact hi.quiet (.inr (.inr ⟨_, rfl⟩)) _ s.running _ s.attached

theorem Exec.inv {c : Option Nat} (hx : Exec fn d c h s) : Inv fn d h s := by
  induction hx with
  | nil => exact Inv.init _ _ _
  | step a _ ih =>
    cases a with
    | getPublisher t n p => exact ih.pubStep t n p
    | getSubscriber t n p => exact ih.subStep t n p
    | getScheduler n => exact ih.schedStep n
    | setContainer c => exact ih.contStep c
    | start => exact ih.quiet (.inl rfl) _ true _ _
    | stop => exact ih.quiet (.inr (.inl rfl)) _ false _ _

theorem Exec.run {c : Option Nat} (hx : Exec fn d c h s) (cs : List (Call Ty Par)) : Exec fn d c (h ++ (Prov.run fn d s cs).1) (Prov.run fn d s cs).2 := by
  induction cs generalizing h s with
  | nil => simpa [Prov.run] using hx
  | cons a cs ih =>
    have := ih (hx.step a)
    simpa [Prov.run] using this

/-- Asking for a publisher by name gives the same object exactly if the names are the same, whatever types and parameters were asked for. -/
theorem C64_publisher_identity {c : Option Nat} (hx : Exec fn d c h s) {t t' : Ty} {n n' : String} {p p' : Par} {i j : Nat}
    (h1 : (Call.getPublisher t n p, Ret.obj i) ∈ h) (h2 : (Call.getPublisher t' n' p', Ret.obj j) ∈ h) : i = j ↔ n = n' := by
  have hi := hx.inv
  have g1 := hi.gotPub _ _ _ _ h1
  have g2 := hi.gotPub _ _ _ _ h2
  constructor
  · rintro rfl
    obtain ⟨_, _, _, o1, -⟩ := hi.pub _ _ g1
    obtain ⟨_, _, _, o2, -⟩ := hi.pub _ _ g2
    rw [o1] at o2; simp at o2; exact o2.2.1
  · rintro rfl
    rw [g1] at g2; exact Option.some.inj g2

/-- The publisher handed out publishes on the topic asked for, is never destroyed while the provider lives, and is made as the first request for
that name said: its type and parameters are those of the first request. -/
theorem C64_publisher_made_by_first_request {c : Option Nat} (hx : Exec fn d c h s) {t : Ty} {n : String} {p : Par} {i : Nat}
    (h1 : (Call.getPublisher t n p, Ret.obj i) ∈ h) :
    i ∉ s.dead ∧ ∃ t₀ p₀ k, (pubUses fn d false (calls h)).lookup n = some (t₀, p₀) ∧ s.objs[i]? = some ⟨.publisher t₀ p₀, n, k⟩ := by
  have hi := hx.inv
  have g1 := hi.gotPub _ _ _ _ h1
  obtain ⟨t₀, p₀, k, o1, u⟩ := hi.pub _ _ g1
  exact ⟨hi.pubAlive _ _ g1, t₀, p₀, k, u, o1⟩

theorem lookup_mem {α : Type} {l : List (String × α)} {n : String} {x : α} (h : l.lookup n = some x) : (n, x) ∈ l := by
  induction l with
  | nil => cases h
  | cons e l ih =>
    obtain ⟨a, b⟩ := e
    rw [List.lookup_cons] at h
    split at h
    · next e => cases h; have : n = a := by simpa using e
                subst this; exact List.mem_cons_self
    · exact List.mem_cons_of_mem _ (ih h)

/-- If all requests for a name ask for the same type and parameters, every request gets a publisher of that type with those parameters.
Missing: names used with two types (C64_violation_type) or parameters (C64_violation_parameters). -/
theorem C64_publisher_as_requested_partial {c : Option Nat} (hx : Exec fn d c h s) {t : Ty} {n : String} {p : Par} {i : Nat}
    (h1 : (Call.getPublisher t n p, Ret.obj i) ∈ h) (hone : ∀ t' p', (n, t', p') ∈ pubUses fn d false (calls h) → t' = t ∧ p' = p) :
    ∃ k, s.objs[i]? = some ⟨.publisher t p, n, k⟩ := by
  obtain ⟨-, t₀, p₀, k, u, o⟩ := C64_publisher_made_by_first_request hx h1
  obtain ⟨rfl, rfl⟩ := hone _ _ (lookup_mem u)
  exact ⟨k, o⟩

/-- Subscribers: same name, same object, of a type that was asked for under that name, on that topic, never destroyed.
Missing: names that are also given to `getScheduler` (C64_violation_scheduler_destroys_subscriber) and names used with two types. -/
theorem C64_subscriber_partial {c : Option Nat} (hx : Exec fn d c h s) {t : Ty} {n : String} {p : Par} {i : Nat}
    (h1 : (Call.getSubscriber t n p, Ret.obj i) ∈ h) (hn : ∀ m, Call.getScheduler m ∈ calls h → schedName m ≠ n) :
    i ∉ s.dead ∧ (∃ t₀ p₀ k, s.objs[i]? = some ⟨.subscriber t₀ p₀, n, k⟩ ∧ Call.getSubscriber t₀ n p₀ ∈ calls h) ∧
    ∀ t' n' p' j, (Call.getSubscriber t' n' p', Ret.obj j) ∈ h → (∀ m, Call.getScheduler m ∈ calls h → schedName m ≠ n') → (i = j ↔ n = n') := by
  have hi := hx.inv
  have get : ∀ t' n' p' j, (Call.getSubscriber t' n' p', Ret.obj j) ∈ h → (∀ m, Call.getScheduler m ∈ calls h → schedName m ≠ n') →
      s.subs.lookup n' = some j ∧ ∃ t₀ p₀ k, s.objs[j]? = some ⟨.subscriber t₀ p₀, n', k⟩ ∧ Call.getSubscriber t₀ n' p₀ ∈ calls h := by
    intro t' n' p' j h2 hn'
    have g : s.subs.lookup n' = some j := by
      rcases hi.gotSub _ _ _ _ h2 with g | ⟨m, hm, hmm⟩
      · exact g
      · exact absurd hm (hn' m hmm)
    refine ⟨g, ?_⟩
    rcases hi.sub _ _ g with ⟨t₀, p₀, k, o, q, hq⟩ | ⟨k, o, m, hm, hmm⟩
    · exact ⟨t₀, p₀, k, o, List.mem_map.mpr ⟨_, hq, rfl⟩⟩
    · exact absurd hm (hn' m hmm)
  obtain ⟨g1, t₀, p₀, k, o1, hc⟩ := get t n p i h1 hn
  refine ⟨hi.subAlive _ _ g1, ⟨t₀, p₀, k, o1, hc⟩, fun t' n' p' j h2 hn' => ?_⟩
  obtain ⟨g2, _, _, _, o2, -⟩ := get t' n' p' j h2 hn'
  constructor
  · rintro rfl
    rw [o1] at o2; simp at o2; exact o2.2.1
  · rintro rfl
    rw [g1] at g2; exact Option.some.inj g2

/-- If moreover all requests for the name ask for one type, every request gets a subscriber of that type.
Missing: as in C64_subscriber_partial. -/
theorem C64_subscriber_as_requested_partial {c : Option Nat} (hx : Exec fn d c h s) {t : Ty} {n : String} {p : Par} {i : Nat}
    (h1 : (Call.getSubscriber t n p, Ret.obj i) ∈ h) (hn : ∀ m, Call.getScheduler m ∈ calls h → schedName m ≠ n)
    (hone : ∀ t' p', Call.getSubscriber t' n p' ∈ calls h → t' = t) : ∃ p₀ k, s.objs[i]? = some ⟨.subscriber t p₀, n, k⟩ := by
  obtain ⟨-, ⟨t₀, p₀, k, o, hc⟩, -⟩ := C64_subscriber_partial hx h1 hn
  cases hone _ _ hc
  exact ⟨p₀, k, o⟩

/-- There is one scheduler: every `getScheduler` returns the same; it publishes through a living publisher to a topic on which a living
function executor listens. -/
theorem C64_one_scheduler {c : Option Nat} (hx : Exec fn d c h s) {m : String} {r : Ret} (h1 : (Call.getScheduler m, r) ∈ h) :
    (∀ m' r', (Call.getScheduler m', r') ∈ h → r' = r) ∧
    ∃ i e n t p k k', r = .sched i ∧ i ∉ s.dead ∧ e ∉ s.dead ∧ s.objs[i]? = some ⟨.publisher t p, n, k⟩ ∧ s.objs[e]? = some ⟨.exec, n, k'⟩ := by
  have hi := hx.inv
  obtain ⟨i, rfl, hs⟩ := hi.gotSched m r h1
  refine ⟨fun m' r' h2 => ?_, ?_⟩
  · obtain ⟨j, rfl, hs'⟩ := hi.gotSched m' r' h2
    rw [hs] at hs'; cases hs'; rfl
  · obtain ⟨-, m', e, k', -, g1, g2, o2⟩ := hi.schedSome i hs
    obtain ⟨t, p, k, o1, -⟩ := hi.pub _ _ g1
    exact ⟨i, e, schedName m', t, p, k, k', rfl, hi.pubAlive _ _ g1, hi.subAlive _ _ g2, o1, o2⟩

/-- The publisher of the scheduler takes `std::function<void()>` if no publisher of another type was requested under the names of the scheduler.
Missing: C64_violation_scheduler_type. -/
theorem C64_scheduler_typed_partial {c : Option Nat} (hx : Exec fn d c h s) {m : String} {i : Nat} (h1 : (Call.getScheduler m, Ret.sched i) ∈ h)
    (hone : ∀ m', Call.getScheduler m' ∈ calls h → ∀ t p, Call.getPublisher t (schedName m') p ∈ calls h → t = fn) :
    ∃ p n k, s.objs[i]? = some ⟨.publisher fn p, n, k⟩ := by
  have hi := hx.inv
  obtain ⟨j, hj, hs⟩ := hi.gotSched m _ h1
  cases hj
  obtain ⟨-, m', e, k', hm', g1, -, -⟩ := hi.schedSome i hs
  obtain ⟨t, p, k, o1, u⟩ := hi.pub _ _ g1
  have huse : ∀ b (cs : List (Call Ty Par)) u, u ∈ pubUses fn d b cs → u.2.1 = fn ∨ .getPublisher u.2.1 u.1 u.2.2 ∈ cs := by
    intro b cs
    induction cs generalizing b with
    | nil => intro u hu; simp [pubUses] at hu
    | cons c cs ih =>
      intro u hu
      have skip : ∀ b', u ∈ pubUses fn d b' cs → u.2.1 = fn ∨ .getPublisher u.2.1 u.1 u.2.2 ∈ c :: cs := fun b' h => by
        rcases ih b' u h with h | h
        · exact .inl h
        · exact .inr (List.mem_cons_of_mem _ h)
      cases c <;> cases b <;> simp only [pubUses, List.mem_cons] at hu <;> first
        | exact skip _ hu
        | (rcases hu with rfl | hu
           · first | exact .inl rfl | exact .inr List.mem_cons_self
           · exact skip _ hu)
  have : t = fn := by
    rcases huse _ _ _ (lookup_mem u) with e | e
    · exact e
    · exact hone m' hm' t p e
  subst this
  exact ⟨p, _, k, o1⟩

/-- While the loop runs, `setContainer` does nothing; otherwise the objects made later get the new container. -/
theorem C64_set_container (fn : Ty) (d : Par) (s : St Ty Par) (c : Option Nat) :
    (s.running = true → setContainer fn d s c = s) ∧ (s.running = false → (setContainer fn d s c).cont = c) := by
  constructor
  · intro h; simp [setContainer, h]
  · intro h
    unfold setContainer
    simp only [h]
    rw [if_neg (by simp)]
    split
    · unfold getPublisher; split <;> rfl
    · rfl

/-- The publisher made by the first request for a name is attached to the container of the provider, if it has one. -/
theorem C64_new_objects_attached {c : Option Nat} (hx : Exec fn d c h s) {k : Nat} (hk : s.cont = some k) (t : Ty) (n : String) (p : Par)
    (hnew : ∀ u ∈ pubUses fn d false (calls h), u.1 ≠ n) :
    ∃ i, (exec fn d s (.getPublisher t n p)).2 = .obj i ∧ (k, i) ∈ (exec fn d s (.getPublisher t n p)).1.attached := by
  have : s.pubs.lookup n = none := by
    cases hl : s.pubs.lookup n with
    | none => rfl
    | some i =>
      obtain ⟨_, _, _, _, u⟩ := hx.inv.pub n i hl
      exact absurd rfl (hnew _ (lookup_mem u))
  refine ⟨s.objs.length, ?_⟩
  simp [exec, getPublisher, this, St.new, hk]

/-- With nothing but the scheduler in the provider, `setContainer` attaches the statistics of its listener and its publisher: the casts of the map
entries (195-201) hit the right objects in every history. -/
theorem C64_set_container_scheduler {c : Option Nat} (hx : Exec fn d c h s) {i k : Nat} (hr : s.running = false) (hs : s.sched = some i)
    (h1 : s.subs.length = 1) (h2 : s.pubs.length = 1) :
    ∃ e n k', s.objs[e]? = some ⟨.exec, n, k'⟩ ∧ (setContainer fn d s (some k)).attached = s.attached ++ [(k, e), (k, i)] := by
  have hi := hx.inv
  obtain ⟨⟨n, j⟩, hsub⟩ := List.length_eq_one_iff.mp h1
  obtain ⟨e, hpub⟩ := List.length_eq_one_iff.mp h2
  obtain ⟨he, k', ho⟩ := hi.only hs hsub hpub
  subst he
  refine ⟨j, n, k', ho, ?_⟩
  unfold setContainer
  rw [hr, hs, hsub, hpub]
  simp [getPublisher]

/-- Example: two topics, the scheduler, and repeated requests. -/
theorem C64_example : (run 0 0 (St.init none : St Nat Nat) [.getPublisher 1 "a" 5, .getSubscriber 1 "a" 0, .getPublisher 2 "b" 6, .getScheduler "",
    .getPublisher 1 "a" 5, .getSubscriber 1 "a" 0, .getScheduler ""]).1.map (·.2) =
    [.obj 0, .obj 1, .obj 2, .sched 4, .obj 0, .obj 1, .sched 4] := by decide +kernel

/-- Violation: the second request asks for a publisher of type 2 and gets the publisher of type 1 (static_pointer_cast of `void`, 110-113). -/
theorem C64_violation_type : ∃ h s i, Exec (0 : Nat) (0 : Nat) none h s ∧ (Call.getPublisher 2 "a" 0, Ret.obj i) ∈ h ∧ s.objs[i]? = some ⟨.publisher 1 0, "a", none⟩ :=
  ⟨_, _, 0, Exec.nil.run [.getPublisher 1 "a" 0, .getPublisher 2 "a" 0], by decide +kernel, by decide +kernel⟩

/-- Violation: the parameters of the second request (pool size, cloner, unsafe mode) are ignored. -/
theorem C64_violation_parameters : ∃ h s i, Exec (0 : Nat) (0 : Nat) none h s ∧ (Call.getPublisher 1 "a" 7, Ret.obj i) ∈ h ∧ s.objs[i]? = some ⟨.publisher 1 3, "a", none⟩ :=
  ⟨_, _, 0, Exec.nil.run [.getPublisher 1 "a" 3, .getPublisher 1 "a" 7], by decide +kernel, by decide +kernel⟩

/-- Violation: `getScheduler` with the name of a subscriber destroys that subscriber, to which the application has a pointer. -/
theorem C64_violation_scheduler_destroys_subscriber : ∃ h s i, Exec (0 : Nat) (0 : Nat) none h s ∧ (Call.getSubscriber 1 "a" 0, Ret.obj i) ∈ h ∧ i ∈ s.dead :=
  ⟨_, _, 0, Exec.nil.run [.getSubscriber 1 "a" 0, .getScheduler "a"], by decide +kernel, by decide +kernel⟩

/-- Violation: with a publisher of another type under the name of the scheduler, the scheduler publishes functions through that publisher. -/
theorem C64_violation_scheduler_type : ∃ h s i, Exec (0 : Nat) (0 : Nat) none h s ∧ (Call.getScheduler "a", Ret.sched i) ∈ h ∧ s.objs[i]? = some ⟨.publisher 1 0, "a", none⟩ :=
  ⟨_, _, 0, Exec.nil.run [.getPublisher 1 "a" 0, .getScheduler "a"], by decide +kernel, by decide +kernel⟩

/-- Violation: after `getScheduler`, `getSubscriber` with its name returns the function executor listener, which is no subscriber at all. -/
theorem C64_violation_subscriber_is_executor : ∃ h s i, Exec (0 : Nat) (0 : Nat) none h s ∧ (Call.getSubscriber 1 "a" 0, Ret.obj i) ∈ h ∧ s.objs[i]? = some ⟨.exec, "a", none⟩ :=
  ⟨_, _, 0, Exec.nil.run [.getScheduler "a", .getSubscriber 1 "a" 0], by decide +kernel, by decide +kernel⟩

/-- Violation: a container set later is not used by the objects that exist, and nothing at all is attached when there is more than the scheduler. -/
theorem C64_violation_late_container : ∃ h s, Exec (0 : Nat) (0 : Nat) none h s ∧ (Call.setContainer (some 9), Ret.unit) ∈ h ∧ s.running = false ∧ s.attached = [] ∧
    s.objs.length = 3 :=
  ⟨_, _, Exec.nil.run [.getScheduler "", .getPublisher 1 "a" 0, .setContainer (some 9)], by decide +kernel, by decide +kernel, by decide +kernel, by decide +kernel⟩

end

end Verif.Prov
