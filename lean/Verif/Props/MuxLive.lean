import Verif.Lemmas.MuxLive
import Verif.Props.DataMux

/-!
C82: under every fair schedule the data multiplexer keeps its subscribers up to date and its publisher going.

These are statements about infinite executions: `σ i` is the state at time `i`, `α i` what happens then (Spec/Fair.lean, Spec/MuxLive.lean).
The scheduler may do what it likes as long as it does not forget a thread for ever.
-/

namespace Verif.Mux
open Verif Verif.Disr Verif.Fair

variable {T : Type} {shared : Bool} {k : Nat} {v : T} {σ : Nat → St T} {α : Nat → Option (Act T)}

theorem reaches (h : Run shared k v σ α) {c i : Nat} (ha : Alive σ α c i) {x : Int} (hb : (σ i).ring.base c < x)
    (hx : x ≤ (σ i).ring.cursor) : ∃ j, i ≤ j ∧ ∃ e ∈ (σ j).dl c, x ≤ e.1 := by
  obtain ⟨j, hj, q1, nx, q2⟩ := ha.catches_up h hx
  obtain ⟨hm, _, hbj⟩ := ha.at h hj
  refine ⟨j, hj, ?_⟩
  rcases C28_batch_ends_with_newest h.hk (h.reach j) hm (.inl ⟨nx, q2⟩) with ⟨e1, e2⟩ | ⟨_, o, t, l, e⟩
  · exfalso
    obtain ⟨_, _, h2, _⟩ := C28_accounting h.hk (h.reach j) hm
    obtain ⟨n, g1, g2, g3, g4⟩ := SRing.C25_single_in_order_exactly_once h.hk (h.reach j).ring hm
    rw [e1, e2] at h2
    have := congrArg List.length (g1.symm.trans h2)
    simp at this
    omega
  · exact ⟨((σ j).ring.seq c, o, t), by rw [e]; simp, q1⟩

/-- **C82**.  A subscriber whose thread runs and is not destroyed, under a scheduler that does not forget it: for every event published since
it subscribed, its listeners get, in the end, that event or a newer one, with the content a successful call gave it; even if listeners throw,
and whatever publisher and other subscribers do. -/
theorem C82_kept_up_to_date (h : Run false k v σ α) {c i : Nat} (ha : Alive σ α c i) {x : Int} (hb : (σ i).ring.base c < x)
    (hx : x ≤ (σ i).ring.cursor) :
    ∃ j, i ≤ j ∧ ∃ y o t op, (y, o, t) ∈ (σ j).dl c ∧ x ≤ y ∧ (y, op) ∈ (σ j).calls ∧ op.Gives t := by
  obtain ⟨j, hj, ⟨y, o, t⟩, he, hxy⟩ := reaches h ha hb hx
  obtain ⟨⟨op, h1, h2⟩, _⟩ := C58_delivered_only_successful h.hk (h.reach j) (ha.at h hj).1 he
  exact ⟨j, hj, y, o, t, op, he, hxy, h1, h2⟩

theorem calls_step {s s' : St T} {a : Act T} (e : Eff shared k s s' a) (hd : s'.done = s.done) : s'.calls = s.calls := by
  cases e with
  | callGot op h1 h2 h3 h4 h5 => rw [h5]
  | callScan op h1 h2 h3 h4 h5 => rw [h5]
  | scanGot op h1 h2 h3 h4 h5 => rw [h5]
  | scanMore op h1 h2 h3 h4 h5 => rw [h5]
  | scanRefused op h1 h2 h3 h4 h6 h5 => rw [h5]
  | writeFresh v x h1 h2 h3 => subst h3; rfl
  | writeIn f x h1 h3 => subst h3; rfl
  | throwFresh v x g h1 h3 => subst h3; rfl
  | throwIn f x g h1 h3 => subst h3; rfl
  | publish op y h1 h2 h3 => subst h3; simp only at hd; omega
  | subscribe d h => subst h; rfl
  | run d h1 h2 h3 h4 h5 h6 h7 => exact h2.calls
  | look d nx h1 h2 h3 h4 h5 h6 h7 => exact h2.calls
  | event d nx av h1 h2 h4 hle h3 h5 h6 h7 => exact h2.calls
  | batchEnd d nx av h1 h2 h3 h4 hgt h5 h6 h7 => exact h2.calls
  | finish d nx av h1 h2 h3 h4 h5 h6 h7 => exact h2.calls
  | throw d nx h1 h2 h3 h4 h5 h6 h7 => exact h2.calls
  | leave d nx h1 h2 h3 h4 h5 h6 h7 => exact h2.calls

/-- **C82**.  If no call succeeds after a time, the last successful one, made after the subscriber was created, is delivered: in the end the
newest event its listeners have been given is that of this call, with the content it gave it. -/
theorem C82_last_event_delivered (h : Run false k v σ α) {c i : Nat} (ha : Alive σ α c i) {x : Int} {op : Op T} {l : List (Int × Op T)}
    (hc : (σ i).calls = (x, op) :: l) (hb : (σ i).ring.base c < x) (hq : ∀ j, i ≤ j → (σ j).done = (σ i).done) :
    ∃ j, i ≤ j ∧ ∃ o t r, (σ j).dl c = (x, o, t) :: r ∧ op.Gives t := by
  have hcur := ((h.reach i).gInv h.hk).res x op (by rw [hc]; simp)
  obtain ⟨j, hj, q1, nx, q2⟩ := ha.catches_up h hcur.1
  obtain ⟨hm, hr, hbj⟩ := ha.at h hj
  have hcalls : (σ j).calls = (x, op) :: l := by
    clear q1 q2 hm hr hbj
    induction hj with
    | refl => exact hc
    | step hm ih =>
      rename_i j
      rcases h.next j with ⟨e, _⟩ | ⟨a, _, _, hs⟩
      · show (σ (j + 1)).calls = _; rw [e]; exact ih
      · exact (calls_step (step_eff (h.pcInv j) hs) ((hq (j + 1) (Nat.le_succ_of_le hm)).trans (hq j hm).symm)).trans ih
  rcases C28_batch_ends_with_newest h.hk (h.reach j) hm (.inl ⟨nx, q2⟩) with ⟨e1, e2⟩ | ⟨_, o, t, r, e⟩
  · exfalso
    obtain ⟨_, _, h2, _⟩ := C28_accounting h.hk (h.reach j) hm
    obtain ⟨n, g1, g2, g3, g4⟩ := SRing.C25_single_in_order_exactly_once h.hk (h.reach j).ring hm
    rw [e1, e2] at h2
    have := congrArg List.length (g1.symm.trans h2)
    simp at this
    omega
  · obtain ⟨⟨op', m1, m2⟩, _, m3⟩ := C58_delivered_only_successful h.hk (h.reach j) hm (x := (σ j).ring.seq c) (o := o) (t := t) (by rw [e]; simp)
    rw [hcalls] at m1 m3
    simp only [List.mem_cons] at m1
    rcases m1 with m1 | m1
    · cases m1
      exact ⟨j, hj, o, t, r, e, m2⟩
    · exfalso
      simp only [List.map_cons, List.pairwise_cons] at m3
      have := m3.1 _ (List.mem_map.mpr ⟨_, m1, rfl⟩)
      simp only at this
      omega

/-- **C82**.  Every call of the publisher returns, whether there is room or not, whatever the subscribers do: it waits for nobody. -/
theorem C82_publish_returns (h : Run shared k v σ α) (hf : PubFair σ α) (i : Nat) : ∃ j, i ≤ j ∧ ((σ j).pc matches .idle) = true :=
  h.call_ends hf i

/-- **C82**.  While no subscriber is destroyed and no cloner or process function throws, a publisher that goes on calling is not refused for ever:
in the end one more call succeeds.  Missing: subscribers destroyed before (next theorem) and a ring filled with failed calls
(C58_violation_failed_calls_fill_the_ring), where it is false. -/
theorem C82_publisher_not_refused_for_ever_partial (h : Run shared k v σ α) (hf : PubFair σ α) {i : Nat}
    (ha : ∀ c ∈ (σ i).ring.gating, Alive σ α c i) (hn : ∀ j, i ≤ j → ∀ g, α j ≠ some (.writeThrows g))
    (hc : ∀ j, ∃ l, j ≤ l ∧ ∃ op, α l = some (.call op)) (hN : (σ i).ring.nextVal < (σ i).ring.cursor + 2 ^ k) :
    ∃ j, i ≤ j ∧ (σ i).done < (σ j).done := h.publishes hf ha hn hc hN

/-- **C82, finding**: after a subscriber is destroyed and not made again, the number of events published from then on is at most the number of slots,
for ever, however long the publisher tries and whatever the other subscribers do. -/
theorem C82_violation_destroyed_subscriber (h : Run shared k v σ α) {c i : Nat} (hm : c ∈ (σ i).ring.gating) (hi : (σ i).ring.cp c = .idle)
    (hw : ∀ j, i ≤ j → α j ≠ some (.subscribe c) ∧ α j ≠ some (.run c)) {j : Nat} (hj : i ≤ j) :
    (σ j).ring.cursor ≤ (σ i).ring.seq c + 2 ^ k := by
  refine C28_violation_destroyed_subscriber h.hk (h.reach i) hm hi ?_
  induction hj with
  | refl => exact .nil
  | step hm ih =>
    rename_i j
    rcases h.next j with ⟨e, _⟩ | ⟨a, ha, hok, hs⟩
    · show Path _ _ _ _ (σ (j + 1)); rw [e]; exact ih
    · refine .snoc ih ?_ hok hs
      cases a with
      | subscribe d => exact fun e => (hw j hm).1 (by rw [ha, e])
      | run d => exact fun e => (hw j hm).2 (by rw [ha, e])
      | _ => exact trivial

/-! ### concrete executions -/

/-- Executions given by a first state and an action for every moment. -/
def follow (shared : Bool) (k : Nat) (act : Nat → Act T) (s0 : St T) : Nat → St T
  | 0 => s0
  | i + 1 => (step shared k (follow shared k act s0 i) (act i)).getD (follow shared k act s0 i)

theorem follow_run {act : Nat → Act T} {s0 : St T} (hk : k ≤ 30) (h0 : Reach shared k (fun _ => True) v s0)
    (hs : ∀ i, (step shared k (follow shared k act s0 i) (act i)).isSome = true) (hok : ∀ i, OkAct (follow shared k act s0 i) (act i)) :
    Run shared k v (follow shared k act s0) (fun i => some (act i)) := by
  refine ⟨hk, h0, ?_, fun i a ha => by cases ha; exact hok i⟩
  intro i
  show step shared k (follow shared k act s0 i) (act i) = some ((step shared k (follow shared k act s0 i) (act i)).getD _)
  have := hs i
  cases e : step shared k (follow shared k act s0 i) (act i) with
  | none => rw [e] at this; cases this
  | some t => rfl

/-- Two events are published, the second not yet read. -/
def exA0 : List (Act Nat) := [.subscribe 0, .run 0, .call (.fresh 5), .write, .publish, .call (.fresh 7), .write, .publish]

def exA1 : List (Act Nat) := [.look 0, .advance 0, .finish 0, .advance 0, .throw 0]

def exAact (i : Nat) : Act Nat := exA1.getD i (.look 0)

def exAs : St Nat := (runOk false 1 (St.init 0) exA0).getD (St.init 0)

def exA : Nat → St Nat := follow false 1 exAact exAs

theorem exA_tail (d : Nat) : exA (5 + d) = exA 5 := by
  induction d with
  | zero => rfl
  | succ d ih =>
    show (step false 1 (exA (5 + d)) (exAact (5 + d))).getD (exA (5 + d)) = _
    rw [ih]
    have h1 : (exA 5).ring.cp 0 = .wait 2 := by decide +kernel
    have h2 : (exA 5).ring.cursor = 1 := by decide +kernel
    have h3 : exAact (5 + d) = .look 0 := by
      simp [exAact, List.getD_eq_getElem?_getD, List.getElem?_eq_none (show exA1.length ≤ 5 + d by simp [exA1])]
    rw [h3]
    simp [step, lift, SRing.step, h1, h2]

/-- The hypotheses of C82_last_event_delivered and C82_kept_up_to_date are met: two events published and unread at the first moment; the subscriber
consumes both in one batch, skips the first, and its listener throws on the second; then it looks for more for ever. -/
theorem C82_example_delivered : Run false 1 0 exA (fun i => some (exAact i)) ∧ Alive exA (fun i => some (exAact i)) 0 0 ∧
    (∃ f g, (exA 0).calls = [(1, f), (0, g)]) ∧ (exA 0).ring.base 0 = -1 ∧ (∀ j, (exA j).done = 2) ∧ (exA 0).dl 0 = [] ∧
    (exA 5).dl 0 = [(1, .fresh 1, 7)] ∧ (exA 5).dc 0 = 1 := by
  have hact : ∀ d, exAact (5 + d) = .look 0 := fun d => by
    simp [exAact, List.getD_eq_getElem?_getD, List.getElem?_eq_none (show exA1.length ≤ 5 + d by simp [exA1])]
  have hsplit : ∀ {P : Nat → Prop}, (∀ i < 5, P i) → (∀ d, P (5 + d)) → ∀ i, P i := fun h1 h2 i => by
    by_cases h : i < 5
    · exact h1 i h
    · obtain ⟨d, rfl⟩ : ∃ d, i = 5 + d := ⟨i - 5, by omega⟩
      exact h2 d
  refine ⟨?_, ⟨by decide +kernel, by decide +kernel, ?_, ?_⟩, ?_, by decide +kernel, ?_, by decide +kernel, by decide +kernel, by decide +kernel⟩
  · refine follow_run (by decide) ?_ (hsplit (by decide +kernel) ?_) (hsplit (by decide +kernel) ?_)
    · have : (runOk false 1 (St.init 0) exA0).isSome = true := by decide +kernel
      obtain ⟨s, hs⟩ := Option.isSome_iff_exists.mp this
      show Reach _ _ _ _ ((runOk false 1 (St.init 0) exA0).getD (St.init 0))
      rw [hs]
      exact Reach.of_runOk _ .init hs
    · intro d
      show (step false 1 (exA (5 + d)) (exAact (5 + d))).isSome = true
      rw [exA_tail, hact]
      decide +kernel
    · intro d
      rw [hact]; trivial
  · intro j _
    refine hsplit (P := fun j => some (exAact j) ≠ some (.leave 0)) ?_ ?_ j
    · have : ∀ i < 5, (match exAact i with | .leave _ => false | _ => true) = true := by decide +kernel
      intro i hi e
      have := this i hi
      rw [Option.some.inj e] at this; cases this
    · intro d; rw [hact]; nofun
  · intro i _
    exact ⟨5 + i, by omega, .look 0, congrArg some (hact i), .inl rfl⟩
  · have : (exA 0).calls.map (·.1) = [1, 0] := by decide +kernel
    match e : (exA 0).calls with
    | [(a, f), (b, g)] => rw [e] at this; simp at this; exact ⟨f, g, by rw [this.1, this.2]⟩
    | [] => rw [e] at this; simp at this
    | [_] => rw [e] at this; simp at this
    | _ :: _ :: _ :: _ => rw [e] at this; simp at this
  · refine hsplit (by decide +kernel) ?_
    intro d; rw [exA_tail]; decide +kernel

/-- A ring of one slot: the publisher publishes, the subscriber reads, for ever.  `Phase r n s`: `r` steps into round `n`. -/
def exBact (i : Nat) : Act Nat :=
  [Act.call (.fresh 7), .scan, .scan, .write, .publish, .look 0, .advance 0, .finish 0, .advance 0].getD (i % 9) .scan

structure Shape (pc : Pc Nat) (pp : SRing.PPc) (cur nv ca sq : Int) (cp : SRing.CPc) (s : St Nat) : Prop where
  pc : s.pc = pc
  pp : s.ring.pp = pp
  cur : s.ring.cursor = cur
  nv : s.ring.nextVal = nv
  ca : s.ring.cached = ca
  sq : s.ring.seq 0 = sq
  cp : s.ring.cp 0 = cp
  gating : s.ring.gating = [0]

def Phase (n : Int) : Nat → St Nat → Prop
  | 0 => Shape .idle .idle n n (n - 1) n (.wait (n + 1))
  | 1 => Shape (.claiming (.fresh 7)) (.tScan 1 [0] n) n n (n - 1) n (.wait (n + 1))
  | 2 => Shape (.claiming (.fresh 7)) (.tScan 1 [] n) n n (n - 1) n (.wait (n + 1))
  | 3 => Shape (.writing (.fresh 7) (n + 1)) .idle n (n + 1) n n (.wait (n + 1))
  | 4 => Shape (.ready (.fresh 7) (n + 1)) .idle n (n + 1) n n (.wait (n + 1))
  | 5 => Shape .idle .idle (n + 1) (n + 1) n n (.wait (n + 1))
  | 6 => Shape .idle .idle (n + 1) (n + 1) n n (.batch (n + 1) (n + 1))
  | 7 => Shape .idle .idle (n + 1) (n + 1) n n (.handle (n + 1) (n + 1))
  | 8 => Shape .idle .idle (n + 1) (n + 1) n n (.batch (n + 1 + 1) (n + 1))
  | _ => Shape .idle .idle (n + 1) (n + 1) (n + 1 - 1) (n + 1) (.wait (n + 1 + 1))

theorem phase_step {n : Int} {r : Nat} (hr : r < 9) {s : St Nat} (h : Phase n r s) :
    ∃ s', step false 0 s (exBact r) = some s' ∧ Phase n (r + 1) s' := by
  obtain ⟨ring, heap, alloc, pc, disc, content, dl, dc, done, calls, failed⟩ := s
  obtain ⟨cursor, nextVal, cached, gating, seq, slot, pp, cp, pub, refused, dlog, base⟩ := ring
  have e : r = 0 ∨ r = 1 ∨ r = 2 ∨ r = 3 ∨ r = 4 ∨ r = 5 ∨ r = 6 ∨ r = 7 ∨ r = 8 := by omega
  rcases e with rfl | rfl | rfl | rfl | rfl | rfl | rfl | rfl | rfl <;>
    (simp only [Phase] at h; obtain ⟨h1, h2, h3, h4, h5, h6, h7, h8⟩ := h; simp only at h1 h2 h3 h4 h5 h6 h7 h8; subst h1 h2 h3 h4 h5 h8) <;>
    refine ⟨_, by simp [exBact, step, SRing.step, SRing.pstep, SRing.claim, afterClaim, lift, onEvent, h6, h7]; rfl, ?_⟩ <;>
    constructor <;> simp [h6, h7]

def exB0 : List (Act Nat) := [.subscribe 0, .run 0, .call (.fresh 5), .write, .publish, .look 0, .advance 0, .finish 0, .advance 0]

def exBs : St Nat := (runOk false 0 (St.init 0) exB0).getD (St.init 0)

def exB : Nat → St Nat := follow false 0 exBact exBs

theorem exBact_mod (q r : Nat) : exBact (9 * q + r) = exBact r := by
  simp only [exBact]
  rw [Nat.mul_add_mod]

theorem phase_nine {n : Int} {s : St Nat} (h : Phase n 9 s) : Phase (n + 1) 0 s := h

theorem exB_phase (q : Nat) : ∀ r, r < 9 → Phase q r (exB (9 * q + r)) := by
  have one : ∀ q r : Nat, r < 9 → Phase q r (exB (9 * q + r)) → Phase q (r + 1) (exB (9 * q + r + 1)) := by
    intro q r hr h
    obtain ⟨s', h1, h2⟩ := phase_step hr h
    show Phase q (r + 1) ((step false 0 (exB (9 * q + r)) (exBact (9 * q + r))).getD _)
    rw [exBact_mod, h1]
    exact h2
  have rest : ∀ q : Nat, Phase q 0 (exB (9 * q)) → ∀ r, r ≤ 9 → Phase q r (exB (9 * q + r)) := by
    intro q h r
    induction r with
    | zero => intro _; exact h
    | succ r ih => intro hr; exact one q r (by omega) (ih (by omega))
  have first : ∀ q : Nat, Phase q 0 (exB (9 * q)) := by
    intro q
    induction q with
    | zero =>
      constructor
      · show exBs.pc = .idle
        have : (exBs.pc matches .idle) = true := by decide +kernel
        split at this
        · assumption
        · cases this
      all_goals decide +kernel
    | succ q ih => exact phase_nine (rest q ih 9 (by omega))
  exact fun r hr => rest q (first q) r (by omega)

theorem phase_gating {n : Int} {r : Nat} {s : St Nat} (h : Phase n r s) : s.ring.gating = [0] ∧ s.ring.cp 0 ≠ .idle := by
  unfold Phase at h
  split at h <;> exact ⟨h.gating, by rw [h.cp]; nofun⟩

/-- The hypotheses of C82_publish_returns and C82_publisher_not_refused_for_ever_partial are met, by a ring of one slot whose publisher and subscriber
take turns for ever: each round has one call, one event and one delivery. -/
theorem C82_example_publisher : Run false 0 0 exB (fun i => some (exBact i)) ∧ PubFair exB (fun i => some (exBact i)) ∧
    (∀ c ∈ (exB 0).ring.gating, Alive exB (fun i => some (exBact i)) c 0) ∧ (exB 0).ring.gating = [0] ∧
    (∀ j, 0 ≤ j → ∀ g, some (exBact j) ≠ some (.writeThrows g)) ∧ (∀ j, ∃ l, j ≤ l ∧ ∃ op, some (exBact l) = some (.call op)) ∧
    (exB 0).ring.nextVal < (exB 0).ring.cursor + 2 ^ 0 ∧ (exB 0).done = 1 ∧ (exB 5).done = 2 := by
  have hsplit : ∀ {P : Nat → Prop}, (∀ q r, r < 9 → P (9 * q + r)) → ∀ i, P i := fun h i => by
    have := h (i / 9) (i % 9) (Nat.mod_lt _ (by omega))
    rwa [Nat.div_add_mod] at this
  have hact : ∀ r, r < 9 → exBact r = .call (.fresh 7) ∨ PubTurn (exBact r) ∧ (∀ g, exBact r ≠ .writeThrows g) ∨ Turn 0 (exBact r) := by
    intro r hr
    have e : r = 0 ∨ r = 1 ∨ r = 2 ∨ r = 3 ∨ r = 4 ∨ r = 5 ∨ r = 6 ∨ r = 7 ∨ r = 8 := by omega
    rcases e with rfl | rfl | rfl | rfl | rfl | rfl | rfl | rfl | rfl
    · exact .inl rfl
    · exact .inr (.inl ⟨.inl rfl, nofun⟩)
    · exact .inr (.inl ⟨.inl rfl, nofun⟩)
    · exact .inr (.inl ⟨.inr (.inl rfl), nofun⟩)
    · exact .inr (.inl ⟨.inr (.inr (.inr rfl)), nofun⟩)
    · exact .inr (.inr (.inl rfl))
    · exact .inr (.inr (.inr (.inl rfl)))
    · exact .inr (.inr (.inr (.inr (.inl rfl))))
    · exact .inr (.inr (.inr (.inl rfl)))
  refine ⟨?_, ?_, ?_, by decide +kernel, ?_, ?_, by decide +kernel, by decide +kernel, by decide +kernel⟩
  · refine follow_run (by decide) ?_ (hsplit ?_) (hsplit ?_)
    · have : (runOk false 0 (St.init 0) exB0).isSome = true := by decide +kernel
      obtain ⟨s, hs⟩ := Option.isSome_iff_exists.mp this
      show Reach _ _ _ _ ((runOk false 0 (St.init 0) exB0).getD (St.init 0))
      rw [hs]
      exact Reach.of_runOk _ .init hs
    · intro q r hr
      obtain ⟨s', h1, _⟩ := phase_step hr (exB_phase q r hr)
      show (step false 0 (exB (9 * q + r)) (exBact (9 * q + r))).isSome = true
      rw [exBact_mod, h1]; rfl
    · intro q r hr
      rw [exBact_mod]
      rcases hact r hr with e | ⟨(e | e | ⟨g, e⟩ | e), _⟩ | (e | e | e | e) <;> rw [e] <;> trivial
  · intro i _
    exact ⟨9 * i + 1, by omega, .scan, congrArg some (exBact_mod i 1), .inl rfl⟩
  · intro c hc
    have : (exB 0).ring.gating = [0] := by decide +kernel
    rw [this] at hc
    simp only [List.mem_singleton] at hc
    subst hc
    refine ⟨by rw [this]; simp, (phase_gating (exB_phase 0 0 (by omega))).2, ?_, ?_⟩
    · intro j _
      refine hsplit (P := fun j => some (exBact j) ≠ some (.leave 0)) ?_ j
      intro q r hr
      rw [exBact_mod]
      rcases hact r hr with e | ⟨(e | e | ⟨g, e⟩ | e), _⟩ | (e | e | e | e) <;> rw [e] <;> nofun
    · intro i _
      exact ⟨9 * i + 5, by omega, .look 0, congrArg some (exBact_mod i 5), .inl rfl⟩
  · intro j _
    refine hsplit (P := fun j => ∀ g, some (exBact j) ≠ some (.writeThrows g)) ?_ j
    intro q r hr g
    rw [exBact_mod]
    rcases hact r hr with e | ⟨_, e⟩ | (e | e | e | e)
    · rw [e]; nofun
    · exact fun e' => e g (Option.some.inj e')
    all_goals (rw [e]; nofun)
  · intro j
    exact ⟨9 * j + 0, by omega, _, congrArg some (exBact_mod j 0)⟩

/-- The hypotheses of the finding are met: the subscriber is destroyed, the publisher goes on. -/
theorem C82_violation_example : ((runOk false 0 (St.init 0) (exB0 ++ [.leave 0, .call (.fresh 7), .scan, .scan, .write, .publish, .call (.fresh 8), .scan, .scan])).map
    (fun s => (s.ring.gating, s.ring.cp 0, s.ring.seq 0, s.ring.cursor, s.discarded))) = some ([0], .idle, 0, 1, 1) := by decide +kernel

end Verif.Mux
