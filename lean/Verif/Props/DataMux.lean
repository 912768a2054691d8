import Verif.Lemmas.DataMux

/-!
Properties of the data multiplexer (C28, C29, C58).  Executions are those of `Reach shared k P v`: every interleaving of the publishing
thread with the threads of any number of subscribers, on a ring of `2^k` slots; every initial event `v`; `P` restricts the actions (most
theorems leave it free); subscribers are created while no sequence is claimed and unpublished, as in C21.  `shared = false` is the provider
built with an initializer or none, `shared = true` the one built with a model event.
-/

namespace Verif.Mux
open Verif Verif.Disr

variable {T : Type}

/-! ### C28 -/

theorem filter_lengths {α : Type} (p : α → Bool) (l : List α) : (l.filter p).length + (l.filter (fun x => !p x)).length = l.length := by
  induction l with
  | nil => rfl
  | cons a l ih => by_cases h : p a <;> simp [h] <;> omega

theorem range_sorted (b : Int) (n : Nat) : ((List.range n).map (fun i : Nat => b + 1 + (i : Int))).Pairwise (· < ·) := by
  rw [List.pairwise_map]
  refine (List.pairwise_lt_range (n := n)).imp ?_
  intro a b h; omega

/-- **C28**: the events given to a listener are events published since it subscribed, each at most once and in the order of publication; and
their content is what was published (for a provider without model event). -/
theorem C28_subsequence_in_order {shared : Bool} {k : Nat} (hk : k ≤ 30) {P : Act T → Prop} {v : T} {s : St T} (h : Reach shared k P v s)
    {c : Nat} (hc : c ∈ s.ring.gating) :
    ((s.dl c).reverse.map (·.1)).Pairwise (· < ·) ∧
    (∀ e ∈ s.dl c, s.ring.base c < e.1 ∧ e.1 ≤ s.ring.cursor) ∧
    (shared = false → ∀ e ∈ s.dl c, s.content e.1 = some e.2.2) := by
  have hl := h.logInv hk c hc
  obtain ⟨n, h1, h2, h3, h4⟩ := SRing.C25_single_in_order_exactly_once hk h.ring hc
  have hsub : List.Sublist ((s.dl c).reverse.map (·.1)) ((s.ring.dlog c).reverse.map (·.1)) := by
    rw [List.map_reverse, List.map_reverse, hl.dl]
    exact (List.filter_sublist.map _).reverse
  refine ⟨?_, ?_, hl.val⟩
  · refine List.Pairwise.sublist hsub ?_
    rw [h1]; exact range_sorted _ _
  · intro e he
    have : e.1 ∈ (s.dl c).reverse.map (·.1) := List.mem_map.mpr ⟨e, List.mem_reverse.mpr he, rfl⟩
    have := hsub.subset this
    rw [h1] at this
    obtain ⟨i, hi, hi'⟩ := List.mem_map.mp this
    have := List.mem_range.mp hi
    constructor <;> omega

/-- **C28**: what was delivered to a listener plus what its event handler discarded plus what it has not consumed is what was published since
it subscribed: events are consumed one by one in sequence from the first one, and each is delivered or counted as discarded. -/
theorem C28_accounting {shared : Bool} {k : Nat} (hk : k ≤ 30) {P : Act T → Prop} {v : T} {s : St T} (h : Reach shared k P v s)
    {c : Nat} (hc : c ∈ s.ring.gating) :
    ∃ notConsumed : Nat, ((s.dl c).length : Int) + s.dc c + notConsumed = s.ring.cursor - s.ring.base c ∧
      (s.ring.dlog c).reverse.map (·.1) =
        (List.range ((s.dl c).length + s.dc c)).map (fun i : Nat => s.ring.base c + 1 + (i : Int)) ∧
      (∀ nx, s.ring.cp c = .wait nx → s.ring.cursor < nx → notConsumed = 0) := by
  have hl := h.logInv hk c hc
  obtain ⟨n, h1, h2, h3, h4⟩ := SRing.C25_single_in_order_exactly_once hk h.ring hc
  have hlen : (s.dl c).length + s.dc c = n := by
    have e1 : (s.dl c).length = ((s.ring.dlog c).filter (·.2)).length := by
      have := congrArg List.length hl.dl; simpa using this
    have e2 := filter_lengths (fun p : Int × Bool => p.2) (s.ring.dlog c)
    have e3 := congrArg List.length h1
    simp at e3
    rw [e1, hl.dc]; omega
  refine ⟨(s.ring.cursor - s.ring.base c - n).toNat, by omega, by rw [hlen]; exact h1, ?_⟩
  intro nx hnx hlt
  have hcons := (h.ring.inv hk).cons c hc
  rw [hnx] at hcons
  simp only [SRing.CInv] at hcons
  omega

/-- **C28**: each batch ends with the delivery of its newest event: a subscriber that waits (or was destroyed) has delivered the newest event
it consumed, unless it consumed none. -/
theorem C28_batch_ends_with_newest {shared : Bool} {k : Nat} (hk : k ≤ 30) {P : Act T → Prop} {v : T} {s : St T}
    (h : Reach shared k P v s) {c : Nat} (hc : c ∈ s.ring.gating) (hw : (∃ nx, s.ring.cp c = .wait nx) ∨ s.ring.cp c = .idle) :
    (s.dl c = [] ∧ s.dc c = 0) ∨
      (s.ring.seq c = s.ring.base c + (s.dl c).length + s.dc c ∧ ∃ o t l, s.dl c = (s.ring.seq c, o, t) :: l) := by
  have hl := h.logInv hk c hc
  have hh : s.ring.dlog c = [] ∨ ∃ l, s.ring.dlog c = (s.ring.seq c, true) :: l := by
    have := hl.head
    rcases hw with ⟨nx, hw⟩ | hw <;> (simp only [HeadInv, hw] at this; exact this)
  rcases hh with hh | ⟨l, hh⟩
  · left
    have h1 := hl.dl
    have h2 := hl.dc
    rw [hh] at h1 h2
    exact ⟨by simpa using h1, by simpa using h2⟩
  · right
    obtain ⟨p, h1, h2, _⟩ := C28_accounting hk h hc
    have h3 : ((s.ring.dlog c).reverse.map (·.1)).getLast? = some (s.ring.seq c) := by rw [hh]; simp
    constructor
    · rw [h2] at h3
      generalize hn : (s.dl c).length + s.dc c = n at *
      cases n with
      | zero => simp at h3
      | succ n =>
        rw [List.range_succ, List.map_append] at h3
        simp at h3
        omega
    · have h4 := hl.dl
      rw [hh] at h4
      cases hd : s.dl c with
      | nil => rw [hd] at h4; simp at h4
      | cons e t =>
        rw [hd] at h4
        simp at h4
        obtain ⟨x, o, w⟩ := e
        simp at h4
        exact ⟨o, w, t, by rw [h4.1]⟩

/-- Execution of actions, appended. -/
theorem run_append (shared : Bool) (k : Nat) (s : St T) (as bs : List (Act T)) :
    run shared k s (as ++ bs) = (run shared k s as).bind (fun s' => run shared k s' bs) := by
  induction as generalizing s with
  | nil => rfl
  | cons a as ih =>
    simp only [List.cons_append, run]
    cases step shared k s a with
    | none => rfl
    | some s' => exact ih s'

theorem batch_run {shared : Bool} {k : Nat} {s : St T} {c : Nat} {av : Int} (m : Nat) (nx : Int) (hm : av = nx + m)
    (hcp : s.ring.cp c = .batch nx av) :
    ∃ s' o, run shared k s ((List.replicate (m + 1) [.advance c, .finish c]).flatten ++ [.advance c]) = some s' ∧
      s'.ring.seq = upd s.ring.seq c av ∧ s'.ring.cp = upd s.ring.cp c (.wait (av + 1)) ∧
      s'.dl c = (av, o, s.heap o) :: s.dl c ∧ o = objOf shared k s av ∧ s'.dc c = s.dc c + m ∧ s'.ring.cursor = s.ring.cursor := by
  induction m generalizing s nx with
  | zero =>
    have : nx = av := by simp at hm; omega
    subst this
    refine ⟨{ s with
        ring := { s.ring with seq := upd s.ring.seq c nx, cp := upd s.ring.cp c (.wait (nx + 1)),
                              dlog := upd s.ring.dlog c ((nx, true) :: s.ring.dlog c) }
        dl := upd s.dl c ((nx, objOf shared k s nx, s.heap (objOf shared k s nx)) :: s.dl c) }, objOf shared k s nx, ?_, rfl, rfl, by simp, rfl, by simp, rfl⟩
    · simp [run, step, hcp, lift, onEvent, SRing.step, upd_same]
      funext d; simp only [upd_apply]; split <;> rfl
  | succ m ih =>
    push_cast at hm
    rw [List.replicate_succ]
    have hne : ¬ nx = av := by omega
    have hle : nx ≤ av := by omega
    have e1 : ∃ s2, run shared k s [.advance c, .finish c] = some s2 ∧ s2.ring.cp = upd s.ring.cp c (.batch (nx + 1) av) ∧
        s2.ring.seq = s.ring.seq ∧ s2.dl = s.dl ∧ s2.heap = s.heap ∧ s2.ring.slot = s.ring.slot ∧ s2.dc c = s.dc c + 1 ∧
        s2.ring.cursor = s.ring.cursor := by
      refine ⟨{ s with
        ring := { s.ring with cp := upd s.ring.cp c (.batch (nx + 1) av), dlog := upd s.ring.dlog c ((nx, false) :: s.ring.dlog c) }
        dc := upd s.dc c (s.dc c + 1) }, ?_, rfl, rfl, rfl, rfl, rfl, by simp, rfl⟩
      simp [run, step, hcp, lift, onEvent, SRing.step, upd_same, hne, hle]
      funext d; simp only [upd_apply]; split <;> rfl
    obtain ⟨s2, r1, r2, r3, r4, r5, r6, r7, r8⟩ := e1
    obtain ⟨s', o, q1, q2, q3, q4, q5, q6, q7⟩ := ih (s := s2) (nx + 1) (by omega) (by rw [r2]; simp)
    refine ⟨s', o, ?_, ?_, ?_, ?_, ?_, ?_, ?_⟩
    · rw [List.flatten_cons, List.append_assoc, run_append, r1]
      exact q1
    · rw [q2, r3]
    · rw [q3, r2]; funext d; simp only [upd_apply]; split <;> rfl
    · rw [q4, r4, r5]
    · rw [q5, objOf, objOf, r6]
    · rw [q6, r7]; omega
    · rw [q7, r8]

/-- **C28**: a waiting subscriber whose thread runs gets the newest published event, with its content, and skips and counts the ones before. -/
theorem C28_reader_gets_newest {k : Nat} (hk : k ≤ 30) {P : Act T → Prop} {v : T} {s : St T} (h : Reach false k P v s) {c : Nat}
    (hc : c ∈ s.ring.gating) {nx : Int} (hcp : s.ring.cp c = .wait nx) (h1 : nx ≤ s.ring.cursor) :
    ∃ as s', run false k s as = some s' ∧ (∀ a ∈ as, a = .look c ∨ a = .advance c ∨ a = .finish c) ∧
      s'.ring.cp c = .wait (s.ring.cursor + 1) ∧
      (∃ o t, s'.dl c = (s.ring.cursor, o, t) :: s.dl c ∧ s.content s.ring.cursor = some t) ∧
      (s'.dc c : Int) = s.dc c + (s.ring.cursor - nx) := by
  have hcons := (h.ring.inv hk).cons c hc
  rw [hcp] at hcons
  simp only [SRing.CInv] at hcons
  obtain ⟨s', o, q1, q2, q3, q4, q5, q6, q7⟩ := batch_run (shared := false) (k := k)
    (s := { s with ring := { s.ring with cp := upd s.ring.cp c (.batch nx s.ring.cursor) } }) (c := c) (av := s.ring.cursor)
    (s.ring.cursor - nx).toNat nx (by omega) (by simp)
  have hstep : step false k s (.look c) = some { s with ring := { s.ring with cp := upd s.ring.cp c (.batch nx s.ring.cursor) } } := by
    simp only [step, lift, SRing.step, hcp]
    rw [if_neg (by omega)]; rfl
  refine ⟨.look c :: ((List.replicate ((s.ring.cursor - nx).toNat + 1) [.advance c, .finish c]).flatten ++ [.advance c]), s', ?_, ?_, ?_, ?_, ?_⟩
  · simp only [run, hstep]; exact q1
  · intro a ha
    simp only [List.mem_cons, List.mem_append, List.mem_flatten, List.mem_replicate] at ha
    rcases ha with rfl | ⟨l, ⟨_, rfl⟩, ha⟩ | ha
    · exact .inl rfl
    · simp at ha; exact .inr ha
    · simp at ha; exact .inr (.inl ha)
  · rw [q3]; simp
  · refine ⟨o, s.heap o, q4, ?_⟩
    have := (h.dInv hk).unread rfl c hc s.ring.cursor (by omega) (Int.le_refl _)
    rw [this, q5]; rfl
  · rw [q6]; simp only; omega

theorem scan_run {shared : Bool} {k : Nat} {s : St T} (op : Op T) (rest : List Nat) (m : Int) (hp : s.ring.pp = .tScan 1 rest m)
    (hpc : s.pc = .claiming op) :
    run shared k s (List.replicate rest.length .scan) =
      some { s with ring := { s.ring with pp := .tScan 1 [] (minSeq (rest.map s.ring.seq) m) } } := by
  induction rest generalizing s m with
  | nil =>
    simp only [List.length_nil, List.replicate, run, minSeq, List.map_nil, List.foldl_nil]
    rw [← hp]
  | cons c rest ih =>
    have hstep : step shared k s .scan =
        some { s with ring := { s.ring with pp := .tScan 1 rest (if s.ring.seq c < m then s.ring.seq c else m) } } := by
      simp [step, hpc, SRing.step, SRing.pstep, hp, afterClaim]
    simp only [List.length_cons, List.replicate_succ, run, hstep]
    rw [ih (s := { s with ring := { s.ring with pp := .tScan 1 rest (if s.ring.seq c < m then s.ring.seq c else m) } })
      (if s.ring.seq c < m then s.ring.seq c else m) rfl hpc]
    simp only [minSeq, List.map_cons, List.foldl_cons]

/-- **C28**: a publication is discarded if and only if the ring is full; then it is counted and changes nothing else. -/
theorem C28_discarded_iff_full {shared : Bool} {k : Nat} (hk : k ≤ 30) {P : Act T → Prop} {v : T} {s : St T} (h : Reach shared k P v s)
    (hi : s.pc = .idle) (op : Op T) :
    ∃ j s', run shared k s (.call op :: List.replicate j .scan) = some s' ∧
      s'.heap = s.heap ∧ s'.ring.slot = s.ring.slot ∧ s'.ring.cursor = s.ring.cursor ∧ s'.dl = s.dl ∧ s'.dc = s.dc ∧ s'.done = s.done ∧
      (1 ≤ remaining (2 ^ k) s.ring.nextVal (s.ring.gating.map s.ring.seq) →
        s'.pc = .writing op (s.ring.nextVal + 1) ∧ s'.discarded = s.discarded) ∧
      (¬ 1 ≤ remaining (2 ^ k) s.ring.nextVal (s.ring.gating.map s.ring.seq) → s'.pc = .idle ∧ s'.discarded = s.discarded + 1) := by
  have hinv := h.ring.inv hk
  have hpp : s.ring.pp = .idle := by have := h.pcInv hk; simpa [PcInv, hi] using this
  have hm : s.ring.cached ≤ minSeq (s.ring.gating.map s.ring.seq) s.ring.nextVal := by
    apply le_minSeq hinv.cached_le
    intro x hx
    obtain ⟨c, hc, rfl⟩ := List.mem_map.mp hx
    exact hinv.cached_seq c hc
  have hrem : remaining (2 ^ k) s.ring.nextVal (s.ring.gating.map s.ring.seq) =
    2 ^ k - (s.ring.nextVal - minSeq (s.ring.gating.map s.ring.seq) s.ring.nextVal) := rfl
  by_cases hc : s.ring.nextVal + 1 - 2 ^ k > s.ring.cached ∨ s.ring.cached > s.ring.nextVal
  · have hcall : step shared k s (.call op) =
        some { s with ring := { s.ring with pp := .tScan 1 s.ring.gating s.ring.nextVal }, pc := .claiming op } := by
      simp only [step, hi, SRing.step, hpp]
      rw [if_pos ⟨trivial, by omega⟩, if_pos hc]
      simp [afterClaim]
    have r2 := scan_run (shared := shared) (k := k)
      (s := { s with ring := { s.ring with pp := .tScan 1 s.ring.gating s.ring.nextVal }, pc := .claiming op }) op s.ring.gating
      s.ring.nextVal rfl rfl
    by_cases hw : s.ring.nextVal + 1 - 2 ^ k > minSeq (s.ring.gating.map s.ring.seq) s.ring.nextVal
    · refine ⟨s.ring.gating.length + 1, { s with
          ring := { s.ring with cached := minSeq (s.ring.gating.map s.ring.seq) s.ring.nextVal, pp := .idle, refused := s.ring.refused + 1 }
          pc := .idle, discarded := s.discarded + 1 }, ?_, rfl, rfl, rfl, rfl, rfl, rfl, fun h => by omega, fun _ => ⟨rfl, rfl⟩⟩
      simp only [run, hcall]
      rw [← List.replicate_append_replicate, run_append, r2, Option.bind_some]
      simp only [List.replicate, run, step, SRing.step, SRing.pstep]
      rw [if_pos hw]
      simp [afterClaim]
    · refine ⟨s.ring.gating.length + 1, { s with
          ring := SRing.claim { s.ring with
            cached := minSeq (s.ring.gating.map s.ring.seq) s.ring.nextVal
            pp := .tScan 1 [] (minSeq (s.ring.gating.map s.ring.seq) s.ring.nextVal) } 1
          pc := .writing op (s.ring.nextVal + 1) }, ?_, rfl, rfl, rfl, rfl, rfl, rfl, fun _ => ⟨rfl, rfl⟩, fun h => by omega⟩
      simp only [run, hcall]
      rw [← List.replicate_append_replicate, run_append, r2, Option.bind_some]
      simp only [List.replicate, run, step, SRing.step, SRing.pstep]
      rw [if_neg hw]
      simp [afterClaim, SRing.claim]
  · refine ⟨0, { s with ring := SRing.claim s.ring 1, pc := .writing op (s.ring.nextVal + 1) }, ?_, rfl, rfl, rfl, rfl, rfl, rfl,
      fun _ => ⟨rfl, rfl⟩, fun h => by omega⟩
    simp only [run, List.replicate, step, hi, SRing.step, hpp]
    rw [if_pos ⟨trivial, by omega⟩, if_neg hc]
    simp [afterClaim, SRing.claim]

/-- Finding against **C28**: a destroyed subscriber stays registered in the ring, so from then on at most as many events as the ring has
slots can ever be published, whatever the other subscribers do. -/
theorem C28_violation_destroyed_subscriber {shared : Bool} {k : Nat} (hk : k ≤ 30) {v : T} {s s' : St T} {c : Nat}
    (h : Reach shared k (fun _ => True) v s) (h1 : c ∈ s.ring.gating) (h2 : s.ring.cp c = .idle)
    (hp : Path shared k (Without c) s s') : s'.ring.cursor ≤ s.ring.seq c + 2 ^ k := by
  obtain ⟨r1, r2, r3, r4⟩ := hp.gone hk h h1 h2
  have a1 := SRing.C21_no_overrun hk r1.ring r2
  have a2 := (r1.ring.inv hk).cur_le
  omega

/-! ### C29 -/

/-- **C29**, unread events: on a provider without model event, whatever is published in whatever way, an event that some subscriber has still
to read has the content it was published with.
Missing: providers with a model event (C29_violation_model_event_shared). -/
theorem C29_unread_unchanged_partial {k : Nat} (hk : k ≤ 30) {P : Act T → Prop} {v : T} {s : St T} (h : Reach false k P v s) {c : Nat}
    (hc : c ∈ s.ring.gating) {x : Int} (h1 : s.ring.seq c < x) (h2 : x ≤ s.ring.cursor) :
    s.content x = some (s.heap (objOf false k s x)) := (h.dInv hk).unread rfl c hc x h1 h2

/-- What was published is not altered afterwards: the history variable `content` is written once. -/
theorem C29_content_once {shared : Bool} {k : Nat} (hk : k ≤ 30) {P : Act T → Prop} {v : T} {s s' : St T} {a : Act T}
    (h : Reach shared k P v s) (hs : step shared k s a = some s') {x : Int} {t : T} (hx : s.content x = some t) : s'.content x = some t :=
  content_stays (h.dInv hk) (step_eff (h.pcInv hk) hs) hx

/-- **C29**, held events: a listener that keeps the shared pointer it was given sees the same content until the producer has claimed a ring
size of further events.
Missing: after the wrap (C29_violation_held_mutated). -/
theorem C29_held_until_wrap_partial {k : Nat} (hk : k ≤ 30) {P : Act T → Prop} {v : T} {s : St T} (h : Reach false k P v s) {c : Nat}
    (hc : c ∈ s.ring.gating) {x : Int} {o : Obj} {t : T} (he : (x, o, t) ∈ s.dl c) (hw : s.ring.nextVal < x + 2 ^ k) : s.heap o = t := by
  have hi := h.wInv hk
  obtain ⟨q1, q2, q3⟩ := hi.held c hc _ he
  have e1 := hi.win x q1 q2 hw
  have e2 := (C28_subsequence_in_order hk h hc).2.2 rfl _ he
  have e3 := q3 hw
  simp only at e2 e3
  rw [e1] at e2
  rw [e3]; exact Option.some.inj e2

/-- **C29**, held events, for publications by `publish(const T &)` without cloner, and any provider: an object given to a listener is never
changed again.
Missing: the other ways of publishing (C29_violation_held_mutated). -/
theorem C29_held_for_ever_partial {shared : Bool} {k : Nat} (hk : k ≤ 30) {v : T} {s : St T} (h : Reach shared k FreshOnly v s) {c : Nat}
    {x : Int} {o : Obj} {t : T} (he : (x, o, t) ∈ s.dl c) : s.heap o = t := ((h.fInv hk).held c _ he).2

/-- and the same for every published event, read or not, for every provider.
Missing: the other ways of publishing. -/
theorem C29_unread_for_ever_partial {shared : Bool} {k : Nat} (hk : k ≤ 30) {v : T} {s : St T} (h : Reach shared k FreshOnly v s) {c : Nat}
    (hc : c ∈ s.ring.gating) {x : Int} (h1 : s.ring.seq c < x) {t : T} (ht : s.content x = some t) :
    s.heap (objOf shared k s x) = t := by
  obtain ⟨r, q1, _, q3⟩ := (h.fInv hk).pub x t ht
  have := SRing.C21_unread_event_unchanged hk h.ring hc h1 q1
  rw [objOf, this]; exact q3

instance (s : St T) (a : Act T) : Decidable (OkAct s a) := by
  cases a <;> simp only [OkAct] <;> infer_instance

/-- `run` with the condition of `OkAct` checked. -/
def runOk (shared : Bool) (k : Nat) (s : St T) : List (Act T) → Option (St T)
  | [] => some s
  | a :: as => if OkAct s a then
      match step shared k s a with
      | none => none
      | some s' => runOk shared k s' as
    else none

theorem Reach.of_runOk {shared : Bool} {k : Nat} {v : T} {s s0 : St T} (as : List (Act T)) (h0 : Reach shared k (fun _ => True) v s0)
    (h : runOk shared k s0 as = some s) : Reach shared k (fun _ => True) v s := by
  induction as generalizing s0 with
  | nil => simp only [runOk, Option.some.injEq] at h; exact h ▸ h0
  | cons a as ih =>
    simp only [runOk] at h
    split at h
    · next hok =>
      split at h
      · cases h
      · next s1 hs1 => exact ih (h0.step trivial hok hs1) h
    · cases h

/-- One publication by the publisher alone, the ring having room in its cached view. -/
def pub1 (op : Op T) : List (Act T) := [.call op, .write, .publish]

/-- The same when the gating sequence has to be looked at (`n` subscribers). -/
def pubN (n : Nat) (op : Op T) : List (Act T) := .call op :: List.replicate (n + 1) .scan ++ [.write, .publish]

/-- One round of a subscriber with one event to read. -/
def read1 (c : Nat) : List (Act T) := [.look c, .advance c, .finish c, .advance c]

/-- Finding against **C29**: with two slots, a listener that keeps the event it received sees it change when `publish(shared_ptr)`,
`processAndPublish` or a cloner writes the same slot again (third publication). -/
theorem C29_violation_held_mutated :
    (run false 1 (St.init 0) ([.subscribe 0, .run 0] ++ pub1 (.inplace (fun _ => 10)) ++ read1 0 ++ pub1 (.inplace (fun _ => 11)) ++
      read1 0 ++ pubN 1 (.inplace (fun _ => 12)))).map (fun s => ((s.dl 0), s.heap (.init 0))) =
    some ([(1, .init 1, 11), (0, .init 0, 10)], 12) := by decide +kernel

/-- Finding against **C29**: with a model event all slots share one object: two events published before the subscriber runs; the content of
the first one, unread, is already that of the second, and the listener never sees 10. -/
theorem C29_violation_model_event_shared :
    (run true 2 (St.init 0) ([.subscribe 0, .run 0] ++ pub1 (.inplace (fun _ => 10)) ++ pub1 (.inplace (fun _ => 11)))).map
      (fun s => (s.ring.seq 0, s.ring.cursor, s.content 0, s.heap (objOf true 2 s 0))) = some (-1, 1, some 10, 11) := by decide +kernel

/-! ### C58 -/

/-- **C58**: every event a listener receives is the event of a successful call, with the content that call gave it: for `publish(const T &)` the
value passed, for the others what the function of the call made of the slot (for `publish(shared_ptr)` the value passed).  Each successful
call publishes one event and later calls have later sequences. -/
theorem C58_delivered_only_successful {k : Nat} (hk : k ≤ 30) {P : Act T → Prop} {v : T} {s : St T} (h : Reach false k P v s) {c : Nat}
    (hc : c ∈ s.ring.gating) {x : Int} {o : Obj} {t : T} (he : (x, o, t) ∈ s.dl c) :
    (∃ op, (x, op) ∈ s.calls ∧ op.Gives t) ∧ s.calls.length = s.done ∧ (s.calls.map (·.1)).Pairwise (· > ·) := by
  have hg := h.gInv hk
  obtain ⟨op, hop⟩ := hg.dl c hc _ he
  obtain ⟨_, t', h1, h2⟩ := hg.res _ _ hop
  have h3 := (C28_subsequence_in_order hk h hc).2.2 rfl _ he
  simp only at h1 h3
  rw [h3] at h1; cases h1
  exact ⟨⟨op, hop, h2⟩, hg.len, hg.sorted⟩

/-- **C58** (partial: later publications are not always delivered, see below): the events in the ring that belong to no successful call are
at most as many as the failed calls; without failed calls the events in the ring are exactly the successful publications.
Missing: that a failed call leaves no trace at all, which is false (`C58_violation_*`). -/
theorem C58_extra_events_bounded_partial {shared : Bool} {k : Nat} (hk : k ≤ 30) {P : Act T → Prop} {v : T} {s : St T}
    (h : Reach shared k P v s) :
    (s.done : Int) ≤ s.ring.cursor + 1 ∧ s.ring.cursor + 1 ≤ s.done + s.failed ∧ (s.failed = 0 → s.ring.cursor + 1 = s.done) := by
  have hc := h.cntInv hk
  have hp := h.pcInv hk
  have h1 := hc.ge
  have h2 := hc.next
  have h3 := (h.ring.inv hk).cur_le
  have : s.ring.cursor + 1 ≤ s.done + s.failed := by
    simp only [PcInv] at hp
    cases hpc : s.pc <;> rw [hpc] at h2 hp <;> simp only at h2 hp <;> omega
  exact ⟨h1, this, fun h0 => by omega⟩

/-- **C58** (partial): a failed call makes nothing visible and delivers nothing.
Missing: the slot a failed call occupies and the statistics it changes (`C58_violation_failed_calls_fill_the_ring`, `C58_violation_failed_call_counted`). -/
theorem C58_failed_call_invisible_partial {shared : Bool} {k : Nat} {s s' : St T} {g : T → T}
    (hs : step shared k s (.writeThrows g) = some s') :
    s'.ring = s.ring ∧ s'.dl = s.dl ∧ s'.content = s.content ∧ s'.done = s.done ∧ s'.calls = s.calls ∧ s'.pc = .idle := by
  simp only [step] at hs
  split at hs <;> cases hs <;> exact ⟨rfl, rfl, rfl, rfl, rfl, rfl⟩

/-- Finding against **C58**: once as many calls failed after the last successful one as the ring has slots (and there is a subscriber),
nothing is ever published again: every later publication is discarded. -/
theorem C58_violation_failed_calls_fill_the_ring {shared : Bool} {k : Nat} (hk : k ≤ 30) {v : T} {s s' : St T} {c : Nat}
    (h : Reach shared k (fun _ => True) v s) (hc : c ∈ s.ring.gating) (hi : s.pc = .idle) (hf : s.ring.nextVal = s.ring.cursor + 2 ^ k)
    (hp : Path shared k (fun _ => True) s s') : s'.ring.cursor = s.ring.cursor ∧ s'.done = s.done := by
  have : Reach shared k (fun _ => True) v s' ∧ Stuck k s' c ∧ s'.ring.cursor = s.ring.cursor ∧ s'.done = s.done := by
    induction hp with
    | nil => exact ⟨h, ⟨hc, hf, .inl hi⟩, rfl, rfl⟩
    | snoc hp hP hok hs ih =>
      obtain ⟨r1, r2, r3, r4⟩ := ih
      obtain ⟨q1, q2, q3⟩ := r2.step hk r1 hok hs
      exact ⟨r1.step trivial hok hs, q1, q2.trans r3, q3.trans r4⟩
  exact this.2.2

/-- The premise is met by two failing calls on a ring of two; the third call, which would succeed, is discarded. -/
theorem C58_violation_example :
    (run false 1 (St.init 0) [.subscribe 0, .run 0, .call (.inplace (fun _ => 5)), .writeThrows id, .call (.inplace (fun _ => 5)),
      .writeThrows id, .call (.fresh 7), .scan, .scan]).map
      (fun s => ((s.pc matches .idle), s.ring.nextVal - s.ring.cursor, s.ring.gating, s.failed, s.discarded)) =
    some (true, 2, [0], 2, 1) := by decide +kernel

/-- Finding against **C58**: `processAndPublish` throws half way through the first call (leaving 99 in the object); the next, successful call
publishes 7.  The subscriber then consumes two events for one successful publication and counts the half written one as discarded. -/
theorem C58_violation_failed_call_counted :
    (run false 2 (St.init 0) [.subscribe 0, .run 0, .call (.inplace (fun _ => 5)), .writeThrows (fun _ => 99),
      .call (.inplace (fun _ => 7)), .write, .publish, .look 0, .advance 0, .finish 0, .advance 0, .finish 0, .advance 0]).map
      (fun s => ((s.done, s.ring.cursor), s.content 0, (s.dl 0).map (fun e => (e.1, e.2.2)), s.dc 0)) =
    some ((1, 1), some 99, [(1, 7)], 1) := by decide +kernel

/-! ### the hypotheses are met -/

/-- Two subscribers, one fast and one that sees two events in one batch. -/
theorem C28_example :
    (run false 2 (St.init 0) ([.subscribe 0, .subscribe 1, .run 0, .run 1] ++ pub1 (.fresh 10) ++ read1 0 ++ pub1 (.inplace (· + 7)) ++ read1 0 ++
      [.look 1, .advance 1, .finish 1, .advance 1, .finish 1, .advance 1])).map
      (fun s => ((s.dl 0).map (fun e => (e.1, e.2.2)), s.dc 0, (s.dl 1).map (fun e => (e.1, e.2.2)), s.dc 1)) =
    some ([(1, 7), (0, 10)], 0, [(1, 7)], 1) := by decide +kernel

set_option synthInstance.maxSize 1000 in
/-- The hypotheses of the theorems on C28 and C29 are met: two subscribers, one behind, a refused publication, a held event. -/
example : ∃ s : St Nat, Reach false 1 (fun _ => True) 0 s ∧ 0 ∈ s.ring.gating ∧ 1 ∈ s.ring.gating ∧ s.ring.cp 0 = .wait 2 ∧
    s.ring.seq 1 = -1 ∧ s.ring.cursor = 1 ∧ s.discarded = 1 ∧ (0, .init 0, 10) ∈ s.dl 0 ∧ s.ring.nextVal < 0 + 2 ^ 1 := by
  have hx : ((runOk false 1 (St.init (0 : Nat)) ([.subscribe 0, .subscribe 1, .run 0, .run 1] ++ pub1 (.inplace (fun _ => 10)) ++ read1 0 ++
      pub1 (.fresh 11) ++ read1 0 ++ (.call (.fresh 12) :: List.replicate 3 .scan))).map
      (fun s => (((s.ring.gating, s.ring.cp 0), s.ring.seq 1), (s.ring.cursor, s.ring.nextVal), s.discarded, s.dl 0))) =
      some ((([0, 1], .wait 2), -1), (1, 1), 1, [(1, .fresh 0, 11), (0, .init 0, 10)]) := by decide +kernel
  obtain ⟨s, hs, he⟩ := Option.map_eq_some_iff.mp hx
  simp only [Prod.mk.injEq] at he
  obtain ⟨⟨⟨e1, e2⟩, e3⟩, ⟨e4, e4'⟩, e5, e6⟩ := he
  exact ⟨s, Reach.of_runOk _ .init hs, by simp [e1], by simp [e1], e2, e3, e4, e5, by simp [e6], by simp [e4']⟩

/-- The destroyed subscriber: with two slots, two more publications are accepted and the third is discarded for ever. -/
theorem C28_violation_destroyed_example :
    (run false 1 (St.init 0) ([.subscribe 0, .subscribe 1, .run 0, .run 1, .leave 0] ++ pub1 (.fresh 10) ++ read1 1 ++ pub1 (.fresh 11) ++ read1 1 ++
      (.call (.fresh 12) :: List.replicate 3 .scan))).map
      (fun s => (s.discarded, s.done, s.ring.seq 1, (s.dl 1).length)) = some (1, 2, 1, 2) := by decide +kernel

end Verif.Mux
