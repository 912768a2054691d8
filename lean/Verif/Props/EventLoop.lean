import Verif.Lemmas.EventLoop

/-!
Properties of the event loop (C30, C31).  Executions are those of `Reach k P`: any number of publishing threads and topics, every interleaving
with the loop and with calls of start and stop, on a ring of `2^k` slots; `P` restricts the actions (most theorems leave it free).  `Reach`
itself makes two restrictions: the loop is started only while no publisher is between claim and publication of a sequence, and fewer than
2^31 events are published (C24).  What happens otherwise is shown below.
-/

namespace Verif.EvLoop
open Verif Verif.Disr

variable {D : Type}

/-- Events accepted, in the order the sequences were claimed. -/
def acceptedInOrder (s : St D) : List (Nat × String × D × Int) := s.accepted.reverse

/-- What the listeners get for an accepted event: its topic and its data. -/
def toEmission (a : Nat × String × D × Int) : Emission D := ⟨a.2.2.2, a.2.1, some a.2.2.1⟩

theorem Chain.getElem {l : List (Nat × String × D × Int)} {c : Int} (h : Chain l c) (i : Nat) (hi : i < l.length) : (l[i]).2.2.2 = c - i := by
  induction l generalizing c i with
  | nil => simp at hi
  | cons a l ih =>
    obtain ⟨h1, h2⟩ := h
    cases i with
    | zero => simp [h1]
    | succ i => have := ih h2 i (by simpa using hi); simp only [List.getElem_cons_succ, this]; omega

/-- **C30**: the sequences of the accepted events are 0, 1, 2, … in the order of the claims. -/
theorem C30_claims_numbered {k : Nat} (hk : k ≤ 30) {P : St D → Act D → Prop} {s : St D} (h : Reach k P s) (i : Nat)
    (hi : i < (acceptedInOrder s).length) : ((acceptedInOrder s)[i]).2.2.2 = i ∧ ((acceptedInOrder s).length : Int) = s.ring.cursor + 1 := by
  have hl := h.lInv hk
  have hb := hl.chain.bound
  simp only [acceptedInOrder, List.length_reverse] at hi ⊢
  rw [List.getElem_reverse]
  have := hl.chain.getElem (s.accepted.length - 1 - i) (by omega)
  constructor
  · rw [this]; omega
  · exact hb.2.1

theorem emitted_seq {k : Nat} (hk : k ≤ 30) {P : St D → Act D → Prop} {s : St D} (h : Reach k P s) (hg : 0 ∈ s.ring.gating) :
    ∃ n : Nat, s.emitted.reverse.map (·.seq) = (List.range n).map (fun i : Nat => s.ring.base 0 + 1 + (i : Int)) ∧
      s.ring.seq 0 ≤ s.ring.base 0 + n ∧ s.ring.base 0 + n ≤ s.ring.cursor := by
  have hl := h.lInv hk
  obtain ⟨n, h1, h2, h3, _⟩ := MRing.C25_in_order_exactly_once hk h.ring h.lim hg
  refine ⟨n, ?_, h2, h3⟩
  rw [List.map_reverse, hl.emq hg, ← List.map_reverse, h1]

theorem base_ge {k : Nat} (hk : k ≤ 30) {P : St D → Act D → Prop} {s : St D} (h : Reach k P s) : -1 ≤ s.ring.base 0 := by
  induction h with
  | init => simp [St.init, MRing.St.init]
  | @step s0 s1 a0 hr _ hok hs ih =>
    have hc : -1 ≤ s0.ring.cursor := (hr.lInv hk).chain.bound.1
    cases step_eff hr.pcInv hs <;> (rename s1 = _ => h'; subst h')
    case start => simpa using hc
    all_goals exact ih

/-- **C30**: since the loop was started it has emitted the accepted events in the order of the claims, each exactly once, none left out, each
with its own topic and its own data (never a null pointer): a run of consecutive accepted events that begins with the first one claimed
after the start.  Missing for the full property: what `Reach` excludes (`C30_violation_claimed_at_start`, C24 beyond 2^31). -/
theorem C30_delivery_in_claim_order_partial {k : Nat} (hk : k ≤ 30) {P : St D → Act D → Prop} {s : St D} (h : Reach k P s) (hg : 0 ∈ s.ring.gating) :
    s.emitted.reverse = (((acceptedInOrder s).drop (s.ring.base 0 + 1).toNat).take s.emitted.length).map toEmission ∧
    (s.ring.base 0 + 1).toNat + s.emitted.length ≤ (acceptedInOrder s).length := by
  have hl := h.lInv hk
  have hb := hl.chain.bound
  have hbase := base_ge hk h
  obtain ⟨n, h1, h2, h3⟩ := emitted_seq hk h hg
  have hn : s.emitted.length = n := by have := congrArg List.length h1; simpa using this
  have hlen : (acceptedInOrder s).length = s.accepted.length := by simp [acceptedInOrder]
  refine ⟨?_, by omega⟩
  apply List.ext_getElem
  · simp; omega
  · intro i hi hi'
    simp only [List.length_reverse] at hi
    have hs : (s.emitted.reverse[i]'(by simpa using hi)).seq = s.ring.base 0 + 1 + i := by
      have := congrArg (fun l => l[i]?) h1
      simp only [List.getElem?_map] at this
      rw [List.getElem?_eq_getElem (by simpa using hi), List.getElem?_eq_getElem (by simp; omega)] at this
      simpa using this
    obtain ⟨p, t, d, hm, he⟩ := hl.em hg (s.emitted.reverse[i]'(by simpa using hi)) (List.mem_reverse.mp (List.getElem_mem _))
    have hj : (s.ring.base 0 + 1).toNat + i < (acceptedInOrder s).length := by omega
    have hnum := (C30_claims_numbered hk h _ hj).1
    have hu : (acceptedInOrder s)[(s.ring.base 0 + 1).toNat + i] = (p, t, d, (s.emitted.reverse[i]'(by simpa using hi)).seq) := by
      refine hl.chain.unique (List.mem_reverse.mp (List.getElem_mem hj)) hm ?_
      rw [hnum, hs]; simp only; omega
    simp only [List.getElem_map, List.getElem_take, List.getElem_drop]
    rw [hu]
    exact he

/-- **C30**: distinct topics have distinct names in the external emitter, so a subscriber gets the events of its own topic only, and all
of them. -/
theorem C30_own_topic_only (topic : String) (l : List (Emission D)) : received topic l = l.filter (fun e => e.topic == topic) := by
  have : ∀ a : String, (external a == external topic) = (a == topic) := by
    intro a
    rw [Bool.eq_iff_iff]
    simp only [external, beq_iff_eq]
    constructor
    · intro h
      have := congrArg String.toList h
      simp only [String.toList_append] at this
      exact String.ext (List.append_cancel_right this)
    · rintro rfl; rfl
  simp only [received, this]

/-- **C30**: what the listeners of a topic got since the loop was started: the accepted events of that topic, in the order of the claims. -/
theorem C30_delivery_per_topic {k : Nat} (hk : k ≤ 30) {P : St D → Act D → Prop} {s : St D} (h : Reach k P s) (hg : 0 ∈ s.ring.gating)
    (topic : String) :
    received topic s.emitted.reverse =
      ((((acceptedInOrder s).drop (s.ring.base 0 + 1).toNat).take s.emitted.length).filter (fun a => a.2.1 == topic)).map toEmission := by
  rw [C30_own_topic_only, (C30_delivery_in_claim_order_partial hk h hg).1, List.filter_map]
  rfl

/-! #### progress -/

/-- The loop's own steps. -/
def loopAct : MRing.Act (Val D) → Option (Act D)
  | .look 0 => some .look
  | .scan 0 => some .scan
  | .advance 0 => some .advance
  | .finish 0 => some .finish
  | _ => none

theorem loop_step {k : Nat} {s : St D} {b : MRing.Act (Val D)} {a : Act D} {r : MRing.St (Val D)} (hb : loopAct b = some a)
    (h : MRing.step k s.ring b = some r) : ∃ s', step k s a = some s' ∧ s'.ring = r := by
  unfold loopAct at hb
  split at hb <;> cases hb
  · exact ⟨{ s with ring := r }, by simp [step, lift, h], rfl⟩
  · exact ⟨{ s with ring := r }, by simp [step, lift, h], rfl⟩
  · simp only [step]
    have h' := h
    simp only [MRing.step] at h'
    split at h'
    · next nx av e =>
      by_cases hle : nx ≤ av
      · exact ⟨{ s with ring := r, emitted := readSlot k s nx :: s.emitted }, by rw [e]; simp [hle, lift, h], rfl⟩
      · exact ⟨{ s with ring := r }, by rw [e]; simp [hle, lift, h], rfl⟩
    · cases h'
  · simp only [step]
    have h' := h
    simp only [MRing.step] at h'
    split at h'
    · next nx av e => exact ⟨{ s with ring := r, cleared := upd s.cleared (slotIdx k nx) true }, by rw [e]; simp [lift, h], rfl⟩
    · cases h'

theorem loop_run {k : Nat} {bs : List (MRing.Act (Val D))} {as : List (Act D)} (hb : bs.mapM loopAct = some as) {s : St D} {r : MRing.St (Val D)}
    (h : MRing.run k s.ring bs = some r) : ∃ s', run k s as = some s' ∧ s'.ring = r := by
  induction bs generalizing as s with
  | nil =>
    simp only [List.mapM_nil] at hb
    cases hb
    simp only [MRing.run, Option.some.injEq] at h
    exact ⟨s, rfl, h⟩
  | cons b bs ih =>
    rw [List.mapM_cons] at hb
    cases hb1 : loopAct b with
    | none => simp [hb1] at hb
    | some a =>
      cases hb2 : bs.mapM loopAct with
      | none => simp [hb1, hb2] at hb
      | some as' =>
        simp [hb1, hb2] at hb
        subst hb
        simp only [MRing.run] at h
        split at h
        · cases h
        · next r1 h1 =>
          obtain ⟨s1, e1, e2⟩ := loop_step hb1 h1
          rw [← e2] at h
          obtain ⟨s2, e3, e4⟩ := ih hb2 h
          exact ⟨s2, by simp only [run, e1, e3], e4⟩

theorem mapM_append {α β : Type} (f : α → Option β) {l m : List α} {l' m' : List β} (h1 : l.mapM f = some l') (h2 : m.mapM f = some m') :
    (l ++ m).mapM f = some (l' ++ m') := by
  rw [List.mapM_append, h1, h2]; rfl

theorem mapM_replicate {α β : Type} (f : α → Option β) {a : α} {b : β} (h : f a = some b) (n : Nat) :
    (List.replicate n a).mapM f = some (List.replicate n b) := by
  induction n with
  | zero => rfl
  | succ n ih => rw [List.replicate_succ, List.replicate_succ, List.mapM_cons, h, ih]; rfl

theorem mapM_blocks {α β : Type} (f : α → Option β) {a b : α} {a' b' : β} (h : f a = some a') (h' : f b = some b') (n : Nat) :
    ((List.replicate n [a, b]).flatten).mapM f = some ((List.replicate n [a', b']).flatten) := by
  induction n with
  | zero => rfl
  | succ n ih =>
    rw [List.replicate_succ, List.replicate_succ, List.flatten_cons, List.flatten_cons]
    exact mapM_append f (by simp [List.mapM_cons, h, h']) ih

/-- The loop actions need nothing. -/
theorem reach_loop {k : Nat} {P : St D → Act D → Prop} (hP : ∀ s a, a = .look ∨ a = .scan ∨ a = .advance ∨ a = .finish → P s a)
    {as : List (Act D)} (has : ∀ a ∈ as, a = .look ∨ a = .scan ∨ a = .advance ∨ a = .finish) {s s' : St D} (h : Reach k P s)
    (hr : run k s as = some s') : Reach k P s' ∧ s'.accepted = s.accepted ∧ s'.ring.base 0 = s.ring.base 0 ∧ s'.ring.gating = s.ring.gating ∧
      s'.ring.cursor = s.ring.cursor := by
  induction as generalizing s with
  | nil => simp only [run, Option.some.injEq] at hr; subst hr; exact ⟨h, rfl, rfl, rfl, rfl⟩
  | cons a as ih =>
    simp only [run] at hr
    split at hr
    · cases hr
    · next s1 h1 =>
      have ha := has a (List.mem_cons_self ..)
      have hok : OkAct s a := by rcases ha with rfl | rfl | rfl | rfl <;> trivial
      obtain ⟨i0, i1, i2, i3, i4⟩ := ih (fun b hb => has b (List.mem_cons_of_mem _ hb)) (h.step (hP s a ha) hok h1) hr
      have e := step_eff h.pcInv h1
      have : s1.accepted = s.accepted ∧ s1.ring.base 0 = s.ring.base 0 ∧ s1.ring.gating = s.ring.gating ∧ s1.ring.cursor = s.ring.cursor := by
        rcases ha with rfl | rfl | rfl | rfl <;> cases e <;> (rename s1 = _ => h'; subst h') <;> exact ⟨rfl, rfl, rfl, rfl⟩
      exact ⟨i0, i1.trans this.1, i2.trans this.2.1, i3.trans this.2.2.1, i4.trans this.2.2.2⟩

/-- **C30** (progress): when no publisher is between claim and publication, the loop, scheduled alone and with listeners that do not throw,
comes to a state where every event accepted since the start has been delivered. -/
theorem C30_all_delivered {k : Nat} (hk : k ≤ 30) {s : St D} (h : Reach k (fun _ _ => True) s) (hg : 0 ∈ s.ring.gating) {nx : Int}
    (hw : s.ring.cp 0 = .wait nx) (hq : ∀ x, s.ring.owner x = none) :
    ∃ as s', run k s as = some s' ∧ (∀ a ∈ as, a = .look ∨ a = .scan ∨ a = .advance ∨ a = .finish) ∧ s'.accepted = s.accepted ∧
      s'.emitted.reverse = ((acceptedInOrder s).drop (s.ring.base 0 + 1).toNat).map toEmission ∧ s'.ring.seq 0 = s.ring.cursor := by
  have hi := h.inv hk
  have hl := h.lInv hk
  have hcons := hi.cons 0 hg
  rw [hw] at hcons
  simp only [MRing.CInv] at hcons
  have hseq := hi.seq_ge 0 hg
  have hsle := hi.seq_le 0 hg
  have fin : ∀ {s' : St D}, Reach k (fun _ _ => True) s' → s'.accepted = s.accepted → s'.ring.base 0 = s.ring.base 0 →
      s'.ring.gating = s.ring.gating → s'.ring.cursor = s.ring.cursor → s'.ring.seq 0 = s.ring.cursor →
      s'.emitted.reverse = ((acceptedInOrder s).drop (s.ring.base 0 + 1).toNat).map toEmission := by
    intro s' h' e1 e2 e3 e4 e5
    obtain ⟨n, f1, f2, f3⟩ := emitted_seq hk h' (by rw [e3]; exact hg)
    have hn : s'.emitted.length = n := by have := congrArg List.length f1; simpa using this
    have := (C30_delivery_in_claim_order_partial hk h' (by rw [e3]; exact hg)).1
    have e6 : acceptedInOrder s' = acceptedInOrder s := by simp only [acceptedInOrder, e1]
    have hlen : ((acceptedInOrder s).length : Int) = s.ring.cursor + 1 := by simpa [acceptedInOrder] using hl.chain.bound.2.1
    rw [e6, e2, List.take_of_length_le] at this
    · exact this
    · simp only [List.length_drop]
      have := base_ge hk h
      rw [e2] at f2 f3
      omega
  by_cases hlt : s.ring.cursor < nx
  · exact ⟨[], s, rfl, by simp, rfl, fin h rfl rfl rfl rfl (by omega), by omega⟩
  · obtain ⟨m, _, r, h1, h2, h3, _⟩ := MRing.C25_delivers_published_prefix hk h.ring h.lim hg hw (h := s.ring.cursor) (by omega) (Int.le_refl _)
      (fun x hx hx' => hi.pub_some x (by omega) (by omega) (hq x)) (.inl rfl)
    have hmap : ([MRing.Act.look 0] ++ List.replicate (m + 1) (MRing.Act.scan 0) ++
        ((List.replicate m [MRing.Act.advance 0, MRing.Act.finish 0]).flatten ++ [MRing.Act.advance 0])).mapM (loopAct (D := D)) =
        some ([.look] ++ List.replicate (m + 1) .scan ++ ((List.replicate m [.advance, .finish]).flatten ++ [.advance])) :=
      mapM_append _ (mapM_append _ rfl (mapM_replicate loopAct rfl _)) (mapM_append _ (mapM_blocks loopAct rfl rfl _) rfl)
    obtain ⟨s', e1, e2⟩ := loop_run hmap h1
    have has : ∀ a ∈ (([.look] ++ List.replicate (m + 1) .scan ++ ((List.replicate m [.advance, .finish]).flatten ++ [.advance])) : List (Act D)),
        a = .look ∨ a = .scan ∨ a = .advance ∨ a = .finish := by
      intro a ha
      simp only [List.mem_append, List.mem_singleton, List.mem_replicate, List.mem_flatten] at ha
      rcases ha with (ha | ha) | ⟨l, ⟨_, rfl⟩, ha⟩ | ha
      · exact .inl ha
      · exact .inr (.inl ha.2)
      · simp only [List.mem_cons, List.not_mem_nil, or_false] at ha
        rcases ha with ha | ha
        · exact .inr (.inr (.inl ha))
        · exact .inr (.inr (.inr ha))
      · exact .inr (.inr (.inl ha))
    obtain ⟨g0, g1, g2, g3, g4⟩ := reach_loop (fun _ _ _ => trivial) has h e1
    exact ⟨_, s', e1, has, g1, fin g0 g1 g2 g3 g4 (by rw [e2, h3]), by rw [e2, h3]⟩

/-! #### discards -/

theorem try_run {k : Nat} {p : Nat} {t : String} {d : D} (j : Nat) {s : St D} {r : MRing.St (Val D)} (hp : s.pc p = .claiming t d)
    (ht : Trying (s.ring.pp p)) (h : MRing.run k s.ring (List.replicate j (.pstep p)) = some r) (hr : r.pp p = .idle) :
    ∃ s', run k s (List.replicate j (.claim p)) = some s' ∧ s'.ring = r ∧
      ((r.cursor = s.ring.cursor ∧ s'.pc p = .idle ∧ s'.accepted = s.accepted ∧
          s'.discarded = fun u => if u = t then s.discarded u + 1 else s.discarded u) ∨
        (r.cursor = s.ring.cursor + 1 ∧ s'.pc p = .claimed t d r.cursor ∧ s'.accepted = (p, t, d, r.cursor) :: s.accepted ∧
          s'.discarded = s.discarded)) := by
  induction j generalizing s with
  | zero => simp only [List.replicate_zero, MRing.run, Option.some.injEq] at h; rw [← h] at hr; rw [hr] at ht; exact ht.elim
  | succ j ih =>
    rw [List.replicate_succ] at h ⊢
    simp only [MRing.run] at h
    split at h
    · cases h
    · next r1 h1 =>
      have stuck : r1.pp p = .idle → j = 0 ∧ r1 = r := by
        intro hidle
        cases j with
        | zero => simp only [List.replicate_zero, MRing.run, Option.some.injEq] at h; exact ⟨rfl, h⟩
        | succ j => simp [List.replicate_succ, MRing.run, MRing.step, MRing.pstep, hidle] at h
      have hstep : step k s (.claim p) = some (afterClaim s p t d r1) := by
        simp only [step, hp, h1, Option.map_some]
      simp only [MRing.step] at h1
      cases try_eff ht h1 with
      | got hq e =>
        have hid : r1.pp p = .idle := by rw [e]; simp [MRing.claim]
        have hcur : r1.cursor = s.ring.cursor + 1 := by rw [e]; simp [MRing.claim]
        obtain ⟨rfl, rfl⟩ := stuck hid
        refine ⟨afterClaim s p t d r1, by simp only [run, hstep, List.replicate_zero], ?_, .inr ⟨hcur, ?_⟩⟩
        · simp [afterClaim, hid, hcur]
        · simp [afterClaim, hid, hcur]
      | refused m e =>
        have hid : r1.pp p = .idle := by rw [e]; simp
        have hcur : r1.cursor = s.ring.cursor := by rw [e]
        obtain ⟨rfl, rfl⟩ := stuck hid
        refine ⟨afterClaim s p t d r1, by simp only [run, hstep, List.replicate_zero], ?_, .inl ⟨hcur, ?_⟩⟩
        · simp [afterClaim, hid, hcur]
        · simp [afterClaim, hid, hcur]
      | more m pc hpc _ e =>
        have hne : r1.pp p ≠ .idle := by
          rw [e]; simp only [upd_same]; intro e; rw [e] at hpc; exact hpc
        have hs1 : afterClaim s p t d r1 = { s with ring := r1 } := by simp [afterClaim, hne]
        rw [hs1] at hstep
        have ht1 : Trying (r1.pp p) := by rw [e]; simpa using hpc
        have hcur : r1.cursor = s.ring.cursor := by rw [e]
        obtain ⟨s', e1, e2, e3⟩ := ih (s := { s with ring := r1 }) hp ht1 h
        refine ⟨s', by simp only [run, hstep, e1], e2, ?_⟩
        simp only [hcur] at e3
        exact e3

theorem discarded_iff_remaining {k : Nat} (hk : k ≤ 30) {P : St D → Act D → Prop} {s : St D} (h : Reach k P s) {p : Nat} (hp : s.pc p = .idle)
    (hlim : s.ring.cursor + 1 < 2 ^ 31) (t : String) (d : D) :
    ∃ j s', run k s (.call p t d :: List.replicate j (.claim p)) = some s' ∧
      (1 ≤ remaining (2 ^ k) s.ring.cursor (s.ring.gating.map s.ring.seq) →
        s'.pc p = .claimed t d (s.ring.cursor + 1) ∧ s'.accepted = (p, t, d, s.ring.cursor + 1) :: s.accepted ∧ s'.discarded = s.discarded) ∧
      (¬ 1 ≤ remaining (2 ^ k) s.ring.cursor (s.ring.gating.map s.ring.seq) →
        s'.pc p = .idle ∧ s'.accepted = s.accepted ∧ s'.discarded = fun u => if u = t then s.discarded u + 1 else s.discarded u) := by
  have hi := h.inv hk
  have hpp : s.ring.pp p = .idle := by have := h.pcInv p; rw [hp] at this; exact this
  let s1 : St D := { s with ring := { s.ring with pp := upd s.ring.pp p (.tLoad 1) }, pc := upd s.pc p (.claiming t d) }
  have hcall : step k s (.call p t d) = some s1 := by simp [step, hp, MRing.step, hpp, s1]
  obtain ⟨j, r, h1, h2, h3, _⟩ := MRing.C24_try_next_function (k := k) (s := s1.ring) (p := p) (n := 1) (by simp [s1])
  have hex := MRing.C24_try_next_exact_partial (B := 2 ^ k) (n := 1) (gating := s.ring.gating.map s.ring.seq) hi.cur_ge (by omega) hlim hi.cache_le
    (fun v hv => by obtain ⟨c, hc, rfl⟩ := List.mem_map.mp hv; exact hi.cache_seq c hc)
  obtain ⟨s', e1, e2, e3⟩ := try_run (s := s1) j (t := t) (d := d) (by simp [s1]) (by simp [s1, Trying]) h1 h2
  refine ⟨j, s', by simp only [run, hcall, e1], ?_, ?_⟩
  · intro hrem
    have hr : r.cursor = s.ring.cursor + 1 := by rw [h3]; simp [s1, hex, hrem]
    rcases e3 with ⟨g1, _⟩ | ⟨g1, g2, g3, g4⟩
    · simp only [s1] at g1; omega
    · rw [hr] at g2 g3; exact ⟨g2, g3, g4⟩
  · intro hrem
    have hr : r.cursor = s.ring.cursor := by rw [h3]; simp [s1, hex, hrem]
    rcases e3 with ⟨g1, g2, g3, g4⟩ | ⟨g1, _⟩
    · exact ⟨g2, g3, g4⟩
    · simp only [s1] at g1; omega

theorem gating_zero {k : Nat} {P : St D → Act D → Prop} {s : St D} (h : Reach k P s) : ∀ c ∈ s.ring.gating, c = 0 := by
  induction h with
  | init => simp [St.init, MRing.St.init]
  | @step s0 s1 a0 hr _ hok hs ih =>
    cases step_eff hr.pcInv hs <;> (rename s1 = _ => h'; subst h')
    case start =>
      intro c hc
      rcases List.mem_append.mp hc with hc | hc
      · exact ih c hc
      · simpa using hc
    all_goals exact ih

theorem minSeq_const {m v : Int} (l : List Nat) (f : Nat → Int) (h : ∀ c ∈ l, f c = v) (hv : v ≤ m) (hne : l ≠ []) : minSeq (l.map f) m = v := by
  have key : ∀ (l : List Nat), (∀ c ∈ l, f c = v) → minSeq (l.map f) v = v := by
    intro l
    induction l with
    | nil => intro _; rfl
    | cons a l ih =>
      intro h
      have ha := h a (List.mem_cons_self ..)
      simp only [List.map_cons, minSeq, List.foldl_cons, ha, Int.lt_irrefl, if_false]
      exact ih (fun c hc => h c (List.mem_cons_of_mem _ hc))
  cases l with
  | nil => exact absurd rfl hne
  | cons a l =>
    have ha := h a (List.mem_cons_self ..)
    simp only [List.map_cons, minSeq, List.foldl_cons, ha]
    have : (if v < m then v else m) = v := by split <;> omega
    rw [this]
    exact key l (fun c hc => h c (List.mem_cons_of_mem _ hc))

/-- **C30**: a call of `publish` not disturbed by other publishers, once the loop has been started, is accepted exactly if fewer than `2^k`
accepted events are waiting to be passed by the loop; otherwise it increments the discarded counter of its publisher and nothing else.  Missing: as above. -/
theorem C30_discarded_iff_full_partial {k : Nat} (hk : k ≤ 30) {P : St D → Act D → Prop} {s : St D} (h : Reach k P s) (hg : 0 ∈ s.ring.gating) {p : Nat}
    (hp : s.pc p = .idle) (hlim : s.ring.cursor + 1 < 2 ^ 31) (t : String) (d : D) :
    ∃ j s', run k s (.call p t d :: List.replicate j (.claim p)) = some s' ∧
      (s.ring.cursor - s.ring.seq 0 < 2 ^ k →
        s'.pc p = .claimed t d (s.ring.cursor + 1) ∧ s'.accepted = (p, t, d, s.ring.cursor + 1) :: s.accepted ∧ s'.discarded = s.discarded) ∧
      (¬ s.ring.cursor - s.ring.seq 0 < 2 ^ k →
        s'.pc p = .idle ∧ s'.accepted = s.accepted ∧ s'.discarded = fun u => if u = t then s.discarded u + 1 else s.discarded u) := by
  obtain ⟨j, s', h1, h2, h3⟩ := discarded_iff_remaining hk h hp hlim t d
  have hsle := (h.inv hk).seq_le 0 hg
  have hm := minSeq_const (m := s.ring.cursor) (v := s.ring.seq 0) s.ring.gating s.ring.seq (fun c hc => by rw [gating_zero h c hc]) hsle
    (by intro e; rw [e] at hg; cases hg)
  simp only [remaining, hm] at h2 h3
  exact ⟨j, s', h1, fun hlt => h2 (by omega), fun hlt => h3 (by omega)⟩

/-- The calls of `publish` on `topic` in an execution. -/
def callsOn (topic : String) (as : List (Act D)) : Nat := (as.filter (fun a => match a with | .call _ t _ => t == topic | _ => false)).length

/-- The accepted ones. -/
def acceptedOn (topic : String) (s : St D) : Nat := (s.accepted.filter (fun a => a.2.1 == topic)).length

/-- Threads inside `try_next` for `topic`. -/
def Pending (topic : String) (s : St D) (l : List Nat) : Prop := l.Nodup ∧ ∀ p, p ∈ l ↔ ∃ d, s.pc p = .claiming topic d

theorem Pending.of_eq {topic : String} {s s' : St D} {l : List Nat} (h : Pending topic s l) (he : ∀ p d, s'.pc p = .claiming topic d ↔ s.pc p = .claiming topic d) :
    Pending topic s' l := ⟨h.1, fun p => by rw [h.2 p]; simp only [he]⟩

theorem Pending.drop {topic : String} {s s' : St D} {l : List Nat} (h : Pending topic s l) {p : Nat} {pc : Pc D} (he : s'.pc = upd s.pc p pc)
    (hn : ∀ t d, pc ≠ .claiming t d) (hin : ∃ d, s.pc p = .claiming topic d) : ∃ l', Pending topic s' l' ∧ l.length = l'.length + 1 := by
  have hp := (h.2 p).mpr hin
  refine ⟨l.erase p, ⟨h.1.erase p, ?_⟩, ?_⟩
  · intro q
    rw [h.1.mem_erase_iff, h.2 q, he]
    simp only [upd_apply]
    constructor
    · rintro ⟨h1, h2⟩; rw [if_neg h1]; exact h2
    · rintro ⟨d, h1⟩
      split at h1
      · exact absurd h1 (hn _ _)
      · next hq => exact ⟨hq, d, h1⟩
  · rw [List.length_erase_of_mem hp]
    have := List.length_pos_of_mem hp
    omega

theorem Pending.other {topic : String} {s s' : St D} {l : List Nat} (h : Pending topic s l) {p : Nat} {pc : Pc D} (he : s'.pc = upd s.pc p pc)
    (hn : ∀ d, pc ≠ .claiming topic d) (hin : ∀ d, s.pc p ≠ .claiming topic d) : Pending topic s' l := by
  refine h.of_eq ?_
  intro q d
  rw [he]
  simp only [upd_apply]
  split
  · next e => subst e; exact ⟨fun h => absurd h (hn d), fun h => absurd h (hin d)⟩
  · exact Iff.rfl

theorem account_step {k : Nat} {s s' : St D} {a : Act D} (e : Eff k s s' a) {topic : String} {l : List Nat} (hl : Pending topic s l) :
    ∃ l', Pending topic s' l' ∧
      callsOn topic [a] + (acceptedOn topic s + s.discarded topic + l.length) = acceptedOn topic s' + s'.discarded topic + l'.length := by
  cases e with
  | call p t d h1 h =>
    subst h
    by_cases ht : t = topic
    · subst ht
      refine ⟨p :: l, ⟨?_, ?_⟩, ?_⟩
      · refine List.nodup_cons.mpr ⟨?_, hl.1⟩
        rw [hl.2 p, h1]; rintro ⟨_, h⟩; cases h
      · intro q
        simp only [List.mem_cons, upd_apply, hl.2 q]
        by_cases hq : q = p
        · simp [hq]
        · simp [hq]
      · simp [callsOn, acceptedOn]; omega
    · refine ⟨l, hl.other (p := p) rfl (by intro d h; cases h; exact ht rfl) (by rw [h1]; intro d h; cases h), ?_⟩
      simp [callsOn, acceptedOn, ht]
  | got p t d h1 h2 h =>
    subst h
    by_cases ht : t = topic
    · subst ht
      obtain ⟨l', g1, g2⟩ := hl.drop (s' := { s with
        ring := MRing.claim s.ring p s.ring.cursor 1
        pc := upd s.pc p (.claimed t d (s.ring.cursor + 1))
        accepted := (p, t, d, s.ring.cursor + 1) :: s.accepted }) (p := p) rfl (by simp) ⟨d, h1⟩
      refine ⟨l', g1, ?_⟩
      simp [callsOn, acceptedOn]; omega
    · refine ⟨l, hl.other (p := p) rfl (by intro d h; cases h) (by rw [h1]; intro d h; cases h; exact ht rfl), ?_⟩
      simp [callsOn, acceptedOn, ht]
  | refused p t d m h1 h =>
    subst h
    by_cases ht : t = topic
    · subst ht
      obtain ⟨l', g1, g2⟩ := hl.drop (s' := { s with
        ring := { s.ring with cache := m, pp := upd s.ring.pp p .idle }
        pc := upd s.pc p .idle
        discarded := fun u => if u = t then s.discarded u + 1 else s.discarded u }) (p := p) rfl (by simp) ⟨d, h1⟩
      refine ⟨l', g1, ?_⟩
      simp [callsOn, acceptedOn]; omega
    · refine ⟨l, hl.other (p := p) rfl (by intro d h; cases h) (by rw [h1]; intro d h; cases h; exact ht rfl), ?_⟩
      have ht' : topic ≠ t := fun e => ht e.symm
      simp [callsOn, acceptedOn, ht']
  | write p t d x h1 h2 h =>
    subst h
    refine ⟨l, hl.other (p := p) rfl (by intro d h; cases h) (by rw [h1]; intro d h; cases h), ?_⟩
    simp [callsOn, acceptedOn]
  | publish p t d x h1 h2 h =>
    subst h
    refine ⟨l, hl.other (p := p) rfl (by intro d h; cases h) (by rw [h1]; intro d h; cases h), ?_⟩
    simp [callsOn, acceptedOn]
  | more | weak | start | run | lookNone | look | scan | event | batchEnd | finish | throw | stop =>
    rename s' = _ => h'; subst h'
    exact ⟨l, ⟨hl.1, hl.2⟩, by simp [callsOn, acceptedOn]⟩

theorem account_run {k : Nat} {as : List (Act D)} {s s' : St D} (hp : PcInv s) (hr : run k s as = some s') {topic : String} {l : List Nat}
    (hl : Pending topic s l) : ∃ l', Pending topic s' l' ∧
      callsOn topic as + (acceptedOn topic s + s.discarded topic + l.length) = acceptedOn topic s' + s'.discarded topic + l'.length := by
  induction as generalizing s l with
  | nil => simp only [run, Option.some.injEq] at hr; subst hr; exact ⟨l, hl, by simp [callsOn]⟩
  | cons a as ih =>
    simp only [run] at hr
    split at hr
    · cases hr
    · next s1 h1 =>
      have e := step_eff hp h1
      obtain ⟨l1, g1, g2⟩ := account_step e hl
      obtain ⟨l2, g3, g4⟩ := ih (hp.step e) hr g1
      refine ⟨l2, g3, ?_⟩
      have : callsOn topic (a :: as) = callsOn topic [a] + callsOn topic as := by
        simp only [callsOn, ← List.length_append, ← List.filter_append, List.singleton_append]
      omega

/-- **C30**: in every execution (without any restriction), for every topic: the number of publish calls is the number of accepted ones plus the
discarded counter plus the number of threads still inside `try_next`. -/
theorem C30_every_call_accounted {k : Nat} {as : List (Act D)} {s : St D} (hr : run k St.init as = some s) (topic : String) :
    ∃ inside : List Nat, (inside.Nodup ∧ ∀ p, p ∈ inside ↔ ∃ d, s.pc p = .claiming topic d) ∧
      callsOn topic as = acceptedOn topic s + s.discarded topic + inside.length := by
  obtain ⟨l, h1, h2⟩ := account_run (s := (St.init : St D)) (fun p => rfl) hr (topic := topic) (l := []) ⟨by simp, by simp [St.init]⟩
  refine ⟨l, h1, ?_⟩
  simpa [acceptedOn, St.init] using h2

/-! ### C31 -/

/-- Everything the loop ever emitted, in order. -/
def allEmitted (s : St D) : List (Emission D) := (s.emitted ++ s.before).reverse

/-- Further steps, without restriction on the actions. -/
inductive Steps (k : Nat) : St D → St D → Prop where
  | refl (s) : Steps k s s
  | step {s s1 s2 a} : Steps k s s1 → step k s1 a = some s2 → Steps k s s2

structure SkipInv (c : Int) (old : List (Emission D)) (s : St D) : Prop where
  pc : PcInv s
  gat : 0 ∈ s.ring.gating
  base : c ≤ s.ring.base 0 ∧ c ≤ s.ring.seq 0 ∧ c ≤ s.ring.cursor
  cp : match s.ring.cp 0 with
    | .idle => True
    | .wait nx => c < nx
    | .scan nx hi i => c < nx ∧ nx ≤ i ∧ i ≤ hi + 1
    | .batch nx av => c < nx ∧ nx ≤ av + 1
    | .handle nx av => c < nx ∧ nx ≤ av
  new : ∀ e ∈ s.emitted ++ s.before, e ∈ old ∨ c < e.seq

theorem readSlot_seq (k : Nat) (s : St D) (x : Int) : (readSlot k s x).seq = x := by simp only [readSlot]; split <;> rfl

theorem scan_cases {k : Nat} {s s' : St D} {nx hi i : Int} (h : s.ring.cp 0 = .scan nx hi i) (hs : step k s .scan = some s') :
    (i ≤ hi ∧ s' = { s with ring := { s.ring with cp := upd s.ring.cp 0 (.scan nx hi (i + 1)) } }) ∨
    s' = { s with ring := { s.ring with cp := upd s.ring.cp 0 (.batch nx (i - 1)) } } ∨
    (hi < i ∧ s' = { s with ring := { s.ring with cp := upd s.ring.cp 0 (.batch nx hi) } }) := by
  simp only [step, lift, MRing.step, h] at hs
  (repeat' split at hs) <;> simp only [Option.map_some, Option.some.injEq] at hs
  · exact .inl ⟨by omega, hs.symm⟩
  · exact .inr (.inl hs.symm)
  · exact .inr (.inr ⟨by omega, hs.symm⟩)

theorem SkipInv.step {k : Nat} {c : Int} {old : List (Emission D)} {s s' : St D} {a : Act D} (h : SkipInv c old s) (hs : step k s a = some s') :
    SkipInv c old s' := by
  have e := step_eff h.pc hs
  have hp := h.pc.step e
  obtain ⟨_, hg, ⟨b1, b2, b3⟩, hcp, hnew⟩ := h
  cases e with
  | got p t d h1 h2 h => subst h; exact ⟨hp, hg, ⟨b1, b2, by simp only [MRing.claim]; omega⟩, hcp, hnew⟩
  | start h1 h =>
    subst h
    refine ⟨hp, by simp, ⟨by simpa using b3, by simpa using b3, b3⟩, ?_, ?_⟩
    · simp only [] at hcp ⊢; exact hcp
    · simpa using hnew
  | run h1 h2 h => subst h; exact ⟨hp, hg, ⟨b1, b2, b3⟩, by simp; omega, hnew⟩
  | look nx h2 h3 h => subst h; rw [h2] at hcp; exact ⟨hp, hg, ⟨b1, b2, b3⟩, by simp; simp at hcp; omega, hnew⟩
  | scan nx hi i pc' h2 h3 h =>
    rw [h2] at hcp
    simp only at hcp
    rcases scan_cases h2 hs with ⟨h4, h'⟩ | h' | ⟨h4, h'⟩ <;> rw [h'] <;> rw [h'] at hp
    · exact ⟨hp, hg, ⟨b1, b2, b3⟩, by simp; omega, hnew⟩
    · exact ⟨hp, hg, ⟨b1, b2, b3⟩, by simp; omega, hnew⟩
    · exact ⟨hp, hg, ⟨b1, b2, b3⟩, by simp; omega, hnew⟩
  | event nx av h2 h3 h =>
    subst h; rw [h2] at hcp
    simp only at hcp
    refine ⟨hp, hg, ⟨b1, b2, b3⟩, by simp; omega, ?_⟩
    intro e he
    simp only [List.cons_append] at he
    rcases List.mem_cons.mp he with rfl | he
    · exact .inr (by rw [readSlot_seq]; omega)
    · exact hnew e he
  | batchEnd nx av h2 h3 h =>
    subst h; rw [h2] at hcp
    simp only at hcp
    exact ⟨hp, hg, ⟨b1, by simp; omega, b3⟩, by simp; omega, hnew⟩
  | finish nx av h2 h =>
    subst h; rw [h2] at hcp
    simp only at hcp
    exact ⟨hp, hg, ⟨b1, b2, b3⟩, by simp; omega, hnew⟩
  | throw nx av h2 h =>
    subst h; rw [h2] at hcp
    simp only at hcp
    exact ⟨hp, hg, ⟨b1, by simp; omega, b3⟩, by simp; omega, hnew⟩
  | stop nx h1 h2 h => subst h; exact ⟨hp, hg, ⟨b1, b2, b3⟩, by simp, hnew⟩
  | call | refused | more | weak | write | publish | lookNone =>
    rename s' = _ => h'; subst h'
    exact ⟨hp, hg, ⟨b1, b2, b3⟩, hcp, hnew⟩

/-- **C31** fails, in general: an event that was accepted but has not been emitted when the loop is (re)started is never emitted: not before
the loop was first started, not while it was stopped, and not left over when it was stopped. -/
theorem C31_accepted_before_start_is_lost {k : Nat} {P : St D → Act D → Prop} {s s1 s2 : St D} (h : Reach k P s) (hs : step k s .start = some s1)
    (hs2 : Steps k s1 s2) {x : Int} (hx : x ≤ s.ring.cursor) (hne : ∀ e ∈ allEmitted s, e.seq ≠ x) :
    ∀ e ∈ allEmitted s2, e.seq ≠ x := by
  have h1 : SkipInv s.ring.cursor (s.emitted ++ s.before) s1 := by
    have e := step_eff h.pcInv hs
    have hp := h.pcInv.step e
    cases e with
    | start h1 h' =>
      have hidle := h.stopped h1
      subst h'
      exact ⟨hp, by simp, ⟨by simp, by simp, by simp⟩, by simp [hidle], fun e he => .inl (by simpa using he)⟩
  have h2 : SkipInv s.ring.cursor (s.emitted ++ s.before) s2 := by
    induction hs2 with
    | refl => exact h1
    | step _ hs ih => exact ih.step hs
  intro e he
  rcases h2.new e (List.mem_reverse.mp he) with ho | ho
  · exact hne e (List.mem_reverse.mpr ho)
  · omega

/-- The loop is started only when it has dealt with everything accepted. -/
def DrainedStart (s : St D) (a : Act D) : Prop := a = .start → s.ring.seq 0 = s.ring.cursor

theorem never_started {k : Nat} {P : St D → Act D → Prop} {s : St D} (h : Reach k P s) (hg : 0 ∉ s.ring.gating) :
    s.emitted = [] ∧ s.before = [] ∧ s.ring.base 0 = -1 ∧ s.ring.seq 0 = -1 ∧ s.ring.cp 0 = .idle ∧ s.started = false := by
  induction h with
  | init => simp [St.init, MRing.St.init]
  | @step s0 s1 a0 hr _ hok hs ih =>
    have e := step_eff hr.pcInv hs
    have hgat : 0 ∉ s0.ring.gating := by
      cases e <;> (rename s1 = _ => h'; subst h')
      case start => simp at hg
      all_goals exact hg
    obtain ⟨i1, i2, i3, i4, i5, i6⟩ := ih hgat
    cases e with
    | call | got | refused | more | weak | write | publish | lookNone =>
      rename s1 = _ => h'; subst h'; exact ⟨i1, i2, i3, i4, i5, i6⟩
    | start h1 h' => subst h'; simp at hg
    | run h1 h2 h' => rw [i6] at h1; cases h1
    | look nx h2 h3 h' => rw [i5] at h2; cases h2
    | scan nx hi i pc' h2 h3 h' => rw [i5] at h2; cases h2
    | event nx av h2 h3 h' => rw [i5] at h2; cases h2
    | batchEnd nx av h2 h3 h' => rw [i5] at h2; cases h2
    | finish nx av h2 h' => rw [i5] at h2; cases h2
    | throw nx av h2 h' => rw [i5] at h2; cases h2
    | stop nx h1 h2 h' => rw [i6] at h1; cases h1

/-- Emissions of one session. -/
theorem session {k : Nat} (hk : k ≤ 30) {P : St D → Act D → Prop} {s : St D} (h : Reach k P s) :
    s.emitted.reverse = (((acceptedInOrder s).drop (s.ring.base 0 + 1).toNat).take s.emitted.length).map toEmission ∧
    (s.ring.base 0 + 1).toNat + s.emitted.length ≤ (acceptedInOrder s).length ∧
    s.ring.seq 0 ≤ s.ring.base 0 + s.emitted.length ∧ s.ring.base 0 + s.emitted.length ≤ s.ring.cursor := by
  by_cases hg : 0 ∈ s.ring.gating
  · obtain ⟨n, f1, f2, f3⟩ := emitted_seq hk h hg
    have hn : s.emitted.length = n := by have := congrArg List.length f1; simpa using this
    obtain ⟨h1, h2⟩ := C30_delivery_in_claim_order_partial hk h hg
    exact ⟨h1, h2, by omega, by omega⟩
  · obtain ⟨h1, h2, h3, h4, _⟩ := never_started h hg
    have := (h.lInv hk).chain.bound.1
    simp [h1, h3, h4]; omega

theorem drained_before {k : Nat} (hk : k ≤ 30) {s : St D} (h : Reach k DrainedStart s) :
    (s.before.length : Int) = s.ring.base 0 + 1 ∧ s.before.length ≤ (acceptedInOrder s).length ∧
    s.before.reverse = ((acceptedInOrder s).take s.before.length).map toEmission := by
  induction h with
  | init => simp [St.init, MRing.St.init, acceptedInOrder]
  | @step s0 s1 a0 hr hP hok hs ih =>
    obtain ⟨i1, i2, i3⟩ := ih
    cases step_eff hr.pcInv hs with
    | got p t d h1 h2 h' =>
      subst h'
      simp only [acceptedInOrder, List.reverse_cons] at i2 i3 ⊢
      refine ⟨i1, by simp only [List.length_append]; omega, ?_⟩
      rw [i3, List.take_append_of_le_length i2]
    | start h1 h' =>
      have hq := hP rfl
      obtain ⟨g1, g2, g3, g4⟩ := session hk hr
      subst h'
      simp only [acceptedInOrder, List.length_append, upd_same] at *
      refine ⟨by omega, by omega, ?_⟩
      rw [List.reverse_append, i3, g1, ← List.map_append]
      congr 1
      rw [show (s0.ring.base 0 + 1).toNat = s0.before.length by omega, Nat.add_comm, List.take_add]
    | call | refused | more | weak | write | publish | run | lookNone | look | scan | event | batchEnd | finish | throw | stop =>
      rename s1 = _ => h'; subst h'; exact ⟨i1, i2, i3⟩

/-- **C31**, partly: if the loop is started only when it has dealt with everything accepted so far (so: nothing published before the first start
and between stop and start, everything delivered before stop), its emissions over all sessions are the accepted events from the first on, in
claim order, none lost and none repeated.  Missing: events accepted while the loop does not run are lost (`C31_accepted_before_start_is_lost`). -/
theorem C31_drained_restart_partial {k : Nat} (hk : k ≤ 30) {s : St D} (h : Reach k DrainedStart s) :
    allEmitted s = ((acceptedInOrder s).take (allEmitted s).length).map toEmission ∧ (allEmitted s).length ≤ (acceptedInOrder s).length := by
  obtain ⟨h1, h2, h3⟩ := drained_before hk h
  obtain ⟨g1, g2, g3, g4⟩ := session hk h
  have e : (s.ring.base 0 + 1).toNat = s.before.length := by omega
  rw [e] at g1 g2
  simp only [allEmitted, List.length_reverse, List.length_append]
  refine ⟨?_, by omega⟩
  rw [List.reverse_append, h3, g1, ← List.map_append]
  congr 1
  rw [Nat.add_comm s.emitted.length, List.take_add]

/-! ### concrete cases -/

/-- `OkAct` where it can be computed: no start. -/
def okB (s : St D) : Act D → Bool
  | .start => false
  | .claim p => match s.ring.pp p with
    | .tCache _ cur => decide (cur + 1 < 2 ^ 31)
    | _ => true
  | _ => true

theorem okB_ok {s : St D} {a : Act D} (h : okB s a = true) : OkAct s a ∧ DrainedStart s a := by
  cases a with
  | start => cases h
  | claim p =>
    refine ⟨?_, by intro h; cases h⟩
    intro cur hc
    simp only [okB, hc, decide_eq_true_eq] at h
    exact h
  | _ => exact ⟨trivial, by intro h; cases h⟩

/-- An execution that begins with the start of the loop. -/
def runOk (k : Nat) (s : St D) : List (Act D) → Option (St D)
  | [] => some s
  | a :: as => if okB s a then
      match step k s a with
      | none => none
      | some s' => runOk k s' as
    else none

theorem Reach.mono {k : Nat} {P Q : St D → Act D → Prop} (hPQ : ∀ s a, P s a → Q s a) {s : St D} (h : Reach k P s) : Reach k Q s := by
  induction h with
  | init => exact .init
  | step _ hP hok hs ih => exact ih.step (hPQ _ _ hP) hok hs

theorem Reach.of_runOk {k : Nat} {s s0 : St D} (as : List (Act D)) (h0 : Reach k DrainedStart s0) (h : runOk k s0 as = some s) :
    Reach k DrainedStart s := by
  induction as generalizing s0 with
  | nil => simp only [runOk, Option.some.injEq] at h; exact h ▸ h0
  | cons a as ih =>
    simp only [runOk] at h
    split at h
    · next hok =>
      split at h
      · cases h
      · next s1 hs1 => exact ih (h0.step (okB_ok hok).2 (okB_ok hok).1 hs1) h
    · cases h

/-- The state after the first start. -/
def started1 : St D := ((step 1 (St.init : St D) .start).bind (fun s => step 1 s .run)).getD St.init

theorem reach_started1 : Reach 1 DrainedStart (started1 : St D) :=
  (Reach.init.step (a := .start) (by intro _; rfl) (by intro x; rfl) rfl).step (a := .run) (by intro h; cases h) trivial rfl

/-- A publication by thread `p`, alone: the cached gating value suffices (3 steps of try_next) or has to be renewed (`n` more). -/
def pubAll (n p : Nat) (t : String) (d : D) : List (Act D) := .call p t d :: List.replicate (3 + n) (.claim p) ++ [.write p, .publish p]

def readOne : List (Act D) := [.look, .scan, .scan, .advance, .finish, .advance]

/-- The hypotheses of the C30 theorems are met by an execution with two threads, two topics, interleaved claims and a discarded event on a ring
with two slots: thread 2 claims after thread 1 but publishes first; the third call finds the ring full; then the loop delivers both. -/
theorem C30_example : ∃ s : St Nat, Reach 1 DrainedStart s ∧ 0 ∈ s.ring.gating ∧
    s.emitted.reverse = [⟨0, "a", some 10⟩, ⟨1, "b", some 11⟩] ∧ s.discarded "a" = 1 ∧ s.ring.cp 0 = .wait 2 ∧
    received "b" s.emitted.reverse = [⟨1, "b", some 11⟩] := by
  have hx : (runOk 1 (started1 : St Nat) ([.call 1 "a" 10, .call 2 "b" 11] ++ List.replicate 3 (.claim 1) ++ List.replicate 3 (.claim 2) ++
      [.write 2, .publish 2, .look, .scan, .write 1, .advance, .publish 1] ++ (.call 1 "a" 12 :: List.replicate 5 (.claim 1)) ++
      [.look, .scan, .scan, .scan, .advance, .finish, .advance, .finish, .advance])).map
      (fun s => ((s.ring.gating, s.emitted, s.discarded "a"), s.ring.cp 0, received "b" s.emitted.reverse)) =
      some (([0], [⟨1, "b", some 11⟩, ⟨0, "a", some 10⟩], 1), .wait 2, [⟨1, "b", some 11⟩]) := by decide +kernel
  obtain ⟨s, hs, he⟩ := Option.map_eq_some_iff.mp hx
  simp only [Prod.mk.injEq] at he
  obtain ⟨⟨e1, e2, e3⟩, e4, e5⟩ := he
  exact ⟨s, Reach.of_runOk _ reach_started1 hs, by simp [e1], by simp [e2], e3, e4, e5⟩

/-- Finding against **C31**: an event published before the loop is started is not delivered when it is started; the one published after is. -/
theorem C31_violation_before_first_start :
    (run 1 (St.init : St Nat) (pubAll 0 1 "a" 10 ++ [.start, .run, .look] ++ pubAll 0 1 "a" 11 ++ readOne)).map
      (fun s => (allEmitted s, s.discarded "a", s.accepted.length, s.ring.cp 0)) =
    some ([⟨1, "a", some 11⟩], 0, 2, .wait 2) := by decide +kernel

/-- Finding against **C31**: an event accepted while the loop ran but not consumed when it was stopped is lost by the restart. -/
theorem C31_violation_left_over :
    (run 1 (St.init : St Nat) ([.start, .run] ++ pubAll 0 1 "a" 10 ++ [.stop, .start, .run, .look] ++ pubAll 0 1 "a" 11 ++ readOne)).map
      (fun s => (allEmitted s, s.discarded "a", s.accepted.length, s.ring.cp 0)) =
    some ([⟨1, "a", some 11⟩], 0, 2, .wait 2) := by decide +kernel

/-- Finding against **C30**: a publisher that has claimed its sequence when the loop is started and publishes afterwards: the call is not
counted as discarded and the event is not delivered. -/
theorem C30_violation_claimed_at_start :
    (run 1 (St.init : St Nat) (.call 1 "a" 10 :: List.replicate 3 (.claim 1) ++ [.start, .run, .write 1, .publish 1, .look] ++
      pubAll 0 1 "a" 11 ++ readOne)).map
      (fun s => (allEmitted s, s.discarded "a", s.accepted.length, s.ring.cp 0)) =
    some ([⟨1, "a", some 11⟩], 0, 2, .wait 2) := by decide +kernel

end Verif.EvLoop
