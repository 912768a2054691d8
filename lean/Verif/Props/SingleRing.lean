import Verif.Lemmas.SingleRing

/-!
Properties of the single producer ring (C21, and C25 for it).  Executions are those of `Reach`: every interleaving of the
producer with any number of processors; a gating sequence is added only while every claim is published.
-/

namespace Verif.SRing
open Verif Verif.Disr

variable {V : Type}

/-- **C21**: no claimed sequence is more than the ring size ahead of a gating processor. -/
theorem C21_no_overrun {k : Nat} (hk : k ≤ 30) {v : V} {s : St V} (h : Reach k v s) {c : Nat} (hc : c ∈ s.gating) :
    s.nextVal ≤ s.seq c + 2 ^ k := (h.inv hk).over c hc

/-- **C21**: the slot of a claimed sequence `x` holds no event that some gating processor has still to read. -/
theorem C21_claimed_slot_is_free {k : Nat} (hk : k ≤ 30) {v : V} {s : St V} (h : Reach k v s) {c : Nat} (hc : c ∈ s.gating)
    {x y : Int} (hx : s.cursor < x) (hx' : x ≤ s.nextVal) (hy : s.seq c < y) (hy' : y ≤ s.cursor) :
    slotIdx k y ≠ slotIdx k x := by
  intro he
  rw [slotIdx_eq hk, slotIdx_eq hk, idx_eq_iff] at he
  have := (h.inv hk).over c hc
  have := emod_inj (pow_pos' k) he (by omega) (by omega)
  omega

/-- **C21**: an event published and not yet passed by some gating processor is unchanged in its slot. -/
theorem C21_unread_event_unchanged {k : Nat} (hk : k ≤ 30) {v : V} {s : St V} (h : Reach k v s) {c : Nat} (hc : c ∈ s.gating)
    {x : Int} {w : V} (hx : s.seq c < x) (hp : s.pub x = some w) : s.slot (slotIdx k x) = w := by
  have hi := h.inv hk
  have hle : x ≤ s.cursor := by
    by_contra hh
    rw [hi.pub_none x (by omega)] at hp; cases hp
  have := hi.slot_pub c hc x hx hle
  rw [hp] at this
  exact (Option.some.inj this).symm

/-- **C21**: in every handler call of a gating processor the slot holds the value published for that sequence. -/
theorem C21_handler_sees_published {k : Nat} (hk : k ≤ 30) {v : V} {s : St V} (h : Reach k v s) {c : Nat} (hc : c ∈ s.gating)
    {x av : Int} (hh : s.cp c = .handle x av) : s.pub x = some (s.slot (slotIdx k x)) := by
  have hi := h.inv hk
  have := hi.cons c hc
  rw [hh] at this
  obtain ⟨h1, h2, h3⟩ := this
  exact hi.slot_pub c hc x h1 (by omega)

/-- A published value never changes. -/
theorem C21_published_once {k : Nat} {s s' : St V} {a : Act V} (hk : k ≤ 30) {v : V} (h : Reach k v s)
    (hs : step k s a = some s') {x : Int} {w : V} (hp : s.pub x = some w) : s'.pub x = some w := by
  have hi := h.inv hk
  cases a with
  | publish y =>
    simp only [step] at hs
    split at hs
    · cases hs
      simp only
      rw [if_neg]
      · exact hp
      · rintro ⟨hx, _⟩
        rw [hi.pub_none x hx] at hp; cases hp
    · cases hs
  | pstep =>
    simp only [step, pstep] at hs
    (repeat' split at hs) <;> (try cases hs) <;> exact hp
  | _ =>
    simp only [step] at hs
    (repeat' split at hs) <;> (try cases hs) <;> exact hp

theorem run_append (k : Nat) (s : St V) (as bs : List (Act V)) :
    run k s (as ++ bs) = (run k s as).bind (fun s' => run k s' bs) := by
  induction as generalizing s with
  | nil => rfl
  | cons a as ih =>
    simp only [List.cons_append, run]
    cases step k s a with
    | none => rfl
    | some s' => exact ih s'

theorem tscan_run {k : Nat} {s : St V} (n : Int) (rest : List Nat) (m : Int) (hp : s.pp = .tScan n rest m) :
    run k s (List.replicate rest.length .pstep) = some { s with pp := .tScan n [] (minSeq (rest.map s.seq) m) } := by
  induction rest generalizing s m with
  | nil =>
    simp only [List.length_nil, List.replicate, run, minSeq, List.map_nil, List.foldl_nil]
    rw [← hp]
  | cons c rest ih =>
    simp only [List.length_cons, List.replicate_succ, run, step, pstep, hp]
    rw [ih (s := { s with pp := .tScan n rest (if s.seq c < m then s.seq c else m) })
      (if s.seq c < m then s.seq c else m) (by simp)]
    simp only [minSeq, List.map_cons, List.foldl_cons]

theorem nscan_run {k : Nat} {s : St V} (n : Int) (rest : List Nat) (m : Int) (hp : s.pp = .nScan n rest m) :
    run k s (List.replicate rest.length .pstep) = some { s with pp := .nScan n [] (minSeq (rest.map s.seq) m) } := by
  induction rest generalizing s m with
  | nil =>
    simp only [List.length_nil, List.replicate, run, minSeq, List.map_nil, List.foldl_nil]
    rw [← hp]
  | cons c rest ih =>
    simp only [List.length_cons, List.replicate_succ, run, step, pstep, hp]
    rw [ih (s := { s with pp := .nScan n rest (if s.seq c < m then s.seq c else m) })
      (if s.seq c < m then s.seq c else m) (by simp)]
    simp only [minSeq, List.map_cons, List.foldl_cons]

/-- **C21**: `try_next(n)`, run without interference in a reachable state, claims exactly the next `n` sequences if at least `n`
slots are free (`remaining_capacity`), and otherwise throws and claims nothing. -/
theorem C21_try_next_exact {k : Nat} (hk : k ≤ 30) {v : V} {s : St V} (h : Reach k v s) {n : Int} (hn : 1 ≤ n)
    (hp : s.pp = .idle) :
    ∃ j s', run k s (.callTry n :: List.replicate j .pstep) = some s' ∧ s'.pp = .idle ∧
      (n ≤ remaining (2 ^ k) s.nextVal (s.gating.map s.seq) → s'.nextVal = s.nextVal + n ∧ s'.refused = s.refused) ∧
      (¬ n ≤ remaining (2 ^ k) s.nextVal (s.gating.map s.seq) → s'.nextVal = s.nextVal ∧ s'.refused = s.refused + 1) := by
  have hi := h.inv hk
  have hm : s.cached ≤ minSeq (s.gating.map s.seq) s.nextVal := by
    apply le_minSeq hi.cached_le
    intro x hx
    obtain ⟨c, hc, rfl⟩ := List.mem_map.mp hx
    exact hi.cached_seq c hc
  have hrem : remaining (2 ^ k) s.nextVal (s.gating.map s.seq) =
    2 ^ k - (s.nextVal - minSeq (s.gating.map s.seq) s.nextVal) := rfl
  by_cases hc : s.nextVal + n - 2 ^ k > s.cached ∨ s.cached > s.nextVal
  · have r2 := tscan_run (k := k) (s := { s with pp := .tScan n s.gating s.nextVal }) n s.gating s.nextVal rfl
    by_cases hw : s.nextVal + n - 2 ^ k > minSeq (s.gating.map s.seq) s.nextVal
    · refine ⟨s.gating.length + 1,
        { s with cached := minSeq (s.gating.map s.seq) s.nextVal, pp := .idle, refused := s.refused + 1 }, ?_, rfl,
        fun h => by omega, fun _ => ⟨rfl, rfl⟩⟩
      simp only [run, step, hp, hn, and_self, if_true, hc]
      rw [← List.replicate_append_replicate, run_append, r2, Option.bind_some]
      simp only [List.replicate, run, step, pstep, hw, if_true]
    · refine ⟨s.gating.length + 1,
        claim { s with cached := minSeq (s.gating.map s.seq) s.nextVal, pp := .tScan n [] (minSeq (s.gating.map s.seq) s.nextVal) } n,
        ?_, rfl, fun _ => ⟨rfl, rfl⟩, fun h => by omega⟩
      simp only [run, step, hp, hn, and_self, if_true, hc]
      rw [← List.replicate_append_replicate, run_append, r2, Option.bind_some]
      simp only [List.replicate, run, step, pstep, hw, if_false]
  · refine ⟨0, claim s n, ?_, rfl, fun _ => ⟨rfl, rfl⟩, fun h => by omega⟩
    simp only [run, step, hp, hn, and_self, if_true, hc, if_false, List.replicate]

/-- **C21**: `next(n)` returns: if there is room for `n` events, steps of the producer alone end the call with the claim. -/
theorem C21_next_returns {k : Nat} {s : St V} {n : Int} (hn : 1 ≤ n) (hnB : n ≤ 2 ^ k) (hp : s.pp = .idle)
    (hroom : ∀ c ∈ s.gating, s.nextVal + n - 2 ^ k ≤ s.seq c) :
    ∃ j s', run k s (.callNext n :: List.replicate j .pstep) = some s' ∧ s'.pp = .idle ∧ s'.nextVal = s.nextVal + n := by
  by_cases hc : s.nextVal + n - 2 ^ k > s.cached ∨ s.cached > s.nextVal
  · have r2 := nscan_run (k := k) (s := { s with pp := .nScan n s.gating s.nextVal }) n s.gating s.nextVal rfl
    have hw : ¬ s.nextVal + n - 2 ^ k > minSeq (s.gating.map s.seq) s.nextVal := by
      have : s.nextVal + n - 2 ^ k ≤ minSeq (s.gating.map s.seq) s.nextVal := by
        apply le_minSeq (by omega)
        intro x hx
        obtain ⟨c, hc, rfl⟩ := List.mem_map.mp hx
        exact hroom c hc
      omega
    refine ⟨s.gating.length + 1,
      claim { s with cached := minSeq (s.gating.map s.seq) s.nextVal, pp := .nScan n [] (minSeq (s.gating.map s.seq) s.nextVal) } n,
      ?_, rfl, rfl⟩
    simp only [run, step, hp, hn, and_self, if_true, hc]
    rw [← List.replicate_append_replicate, run_append, r2, Option.bind_some]
    simp only [List.replicate, run, step, pstep, hw, if_false]
  · refine ⟨0, claim s n, ?_, rfl, rfl⟩
    simp only [run, step, hp, hn, and_self, if_true, hc, if_false, List.replicate]

/-- **C25** on the single producer ring: each sequence after the registration is handled once, in order, without gaps. -/
theorem C25_single_in_order_exactly_once {k : Nat} (hk : k ≤ 30) {v : V} {s : St V} (h : Reach k v s) {c : Nat}
    (hc : c ∈ s.gating) :
    ∃ n : Nat, (s.dlog c).reverse.map (·.1) = (List.range n).map (fun i : Nat => s.base c + 1 + (i : Int)) ∧
      s.seq c ≤ s.base c + n ∧ s.base c + n ≤ s.cursor ∧
      (∀ x av, s.cp c = .handle x av → x = s.base c + n ∧ s.seq c < x) := by
  obtain ⟨n, h1, h2⟩ := h.logs hk c hc
  have hi := h.inv hk
  have h3 := hi.cons c hc
  have h4 := hi.seq_le c hc
  refine ⟨n, h2, ?_⟩
  rw [← h1]
  simp only [done]
  cases hcp : s.cp c <;> rw [hcp] at h3 <;> simp only [CInv] at h3 <;> simp <;> omega

/-- Executing a batch. -/
theorem batch_run {k : Nat} {s : St V} {c : Nat} {av : Int} (m : Nat) (nx : Int) (hm : av + 1 = nx + m)
    (hcp : s.cp c = .batch nx av) :
    ∃ s', run k s ((List.replicate m [.advance c, .finish c]).flatten ++ [.advance c]) = some s' ∧
      s'.seq = upd s.seq c av ∧ s'.cp = upd s.cp c (.wait (av + 1)) ∧
      s'.dlog c = ((List.range m).map (fun i : Nat => (nx + (i : Int), decide (nx + (i : Int) = av)))).reverse ++ s.dlog c := by
  induction m generalizing s nx with
  | zero =>
    have : nx = av + 1 := by simp at hm; omega
    subst this
    refine ⟨{ s with seq := upd s.seq c av, cp := upd s.cp c (.wait (av + 1)) }, ?_, rfl, rfl, by simp⟩
    simp only [List.replicate, List.flatten_nil, List.nil_append, run, step, hcp]
    rw [if_neg (by omega)]
  | succ m ih =>
    push_cast at hm
    rw [List.replicate_succ]
    simp only [List.flatten_cons, List.cons_append, List.nil_append, run, step, hcp]
    rw [if_pos (by omega)]
    simp only [upd_same]
    obtain ⟨s', h1, h2, h3, h4⟩ := ih
      (s := { s with cp := upd (upd s.cp c (.handle nx av)) c (.batch (nx + 1) av),
                     dlog := upd s.dlog c ((nx, decide (nx = av)) :: s.dlog c) }) (nx + 1) (by omega) (by simp)
    refine ⟨s', h1, h2, ?_, ?_⟩
    · rw [h3]; funext d; simp only [upd_apply]; split <;> rfl
    · rw [h4]
      simp only [upd_same]
      rw [List.range_succ_eq_map]
      simp only [List.map_cons, List.map_map, List.reverse_cons, List.append_assoc, List.cons_append, List.nil_append]
      congr 1
      · congr 1
        apply List.map_congr_left
        intro i _
        simp only [Function.comp_apply]
        push_cast
        have : nx + 1 + (i : Int) = nx + ((i : Int) + 1) := by omega
        rw [this]
      · simp

/-- **C25** (progress, single producer): a waiting processor behind the cursor, running alone, handles exactly the events up to the
cursor as one batch, the last one flagged as end of batch. -/
theorem C25_single_delivers_all {k : Nat} {s : St V} {c : Nat} {nx : Int} (hcp : s.cp c = .wait nx) (h1 : nx ≤ s.cursor) :
    ∃ m : Nat, s.cursor + 1 = nx + m ∧ ∃ s',
      run k s ([.look c] ++ ((List.replicate m [.advance c, .finish c]).flatten ++ [.advance c])) = some s' ∧
      s'.cp c = .wait (s.cursor + 1) ∧ s'.seq c = s.cursor ∧
      s'.dlog c = ((List.range m).map (fun i : Nat => (nx + (i : Int), decide (nx + (i : Int) = s.cursor)))).reverse ++ s.dlog c := by
  refine ⟨(s.cursor + 1 - nx).toNat, by omega, ?_⟩
  have r1 : run k s [.look c] = some { s with cp := upd s.cp c (.batch nx s.cursor) } := by
    simp only [run, step, hcp]
    rw [if_neg (by omega)]
  obtain ⟨s', r3, r4, r5, r6⟩ := batch_run (k := k) (s := { s with cp := upd s.cp c (.batch nx s.cursor) }) (c := c)
    (av := s.cursor) (s.cursor + 1 - nx).toNat nx (by omega) (by simp)
  refine ⟨s', ?_, by rw [r5]; simp, by rw [r4]; simp, r6⟩
  rw [run_append, r1, Option.bind_some, r3]

/-- **C21** fails if a processor is added while claims are unpublished: on a ring of two, sequences 0..2 are claimed (2 reusing the
slot of 0, there being no processor), processor 7 is added at the cursor -1, 0 is published and then overwritten by the
write of 2 before processor 7 handles it. -/
theorem C21_late_gating_overrun :
    (run 1 (St.init 'i')
      [.callTry 1, .callTry 1, .callTry 1, .pstep, .addGating 7, .run 7, .write 0 'a', .write 1 'b', .publish 0, .look 7,
       .advance 7, .write 2 'c']).map (fun s => (s.cp 7, s.pub 0, s.slot (slotIdx 1 0), s.gating)) =
    some (.handle 0 0, some 'a', 'c', [7]) := by decide +kernel

/-- The hypotheses are met: one producer and two processors on a ring of two; processor 8 lags behind. -/
example : ∃ s, Reach 1 'i' s ∧ 7 ∈ s.gating ∧ 8 ∈ s.gating ∧ s.cp 7 = .handle 1 1 ∧ s.seq 8 = -1 ∧ s.refused = 1 ∧
    s.pub 1 = some 'b' := by
  let as : List (Act Char) := [.addGating 7, .addGating 8, .run 7, .callTry 1, .write 0 'a', .publish 0, .look 7, .advance 7,
    .finish 7, .advance 7, .callNext 1, .write 1 'b', .publish 1, .look 7, .advance 7, .callTry 1, .pstep, .pstep, .pstep]
  have hx : ((run 1 (St.init 'i') as).map (fun s => ((s.gating, s.cp 7), s.seq 8, s.refused, s.pub 1))) =
      some (([7, 8], .handle 1 1), -1, 1, some 'b') := by decide +kernel
  obtain ⟨s, hs, he⟩ := Option.map_eq_some_iff.mp hx
  simp only [Prod.mk.injEq] at he
  obtain ⟨⟨e1, e2⟩, e3, e4, e5⟩ := he
  refine ⟨s, ?_, by simp [e1], by simp [e1], e2, e3, e4, e5⟩
  have key : ∀ (as : List (Act Char)) (t : St Char), Reach 1 'i' t → (∀ a ∈ as, ∀ c, a ≠ .addGating c) →
      ∀ t', run 1 t as = some t' → Reach 1 'i' t' := by
    intro as
    induction as with
    | nil => intro t h _ t' ht; cases ht; exact h
    | cons a as ih =>
      intro t h ha t' ht
      simp only [run] at ht
      cases hst : step 1 t a with
      | none => rw [hst] at ht; cases ht
      | some u =>
        rw [hst] at ht
        refine ih u (h.step ?_ hst) (fun b hb => ha b (List.mem_cons_of_mem _ hb)) t' ht
        cases a <;> first | trivial | exact absurd rfl (ha _ List.mem_cons_self _)
  have r1 : Reach 1 'i' ((run 1 (St.init 'i') [.addGating 7, .addGating 8]).get (by decide)) := by
    have a1 : step 1 (St.init 'i') (.addGating 7 : Act Char) = some _ := rfl
    have a2 := Reach.step (Reach.init (k := 1) (v := 'i')) (a := .addGating 7) ⟨rfl, rfl⟩ a1
    exact a2.step (a := .addGating 8) ⟨rfl, rfl⟩ rfl
  refine key (as.drop 2) _ r1 (by simp [as]) s ?_
  rw [← hs]; rfl

end Verif.SRing
