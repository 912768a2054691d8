import Verif.Model.ConcurrentQueue
import Mathlib.Data.List.Perm.Basic
import Mathlib.Data.List.Count

/-!
C63: the middleware on the concurrent queue.  `published` are the events accepted by the queue in order, `emitted` what the emitter was given.
-/

namespace Verif.CQ
open Verif

variable {α : Type}

/-- What a thread has removed and not yet accounted for. -/
def Pc.d : Pc α → Nat
  | .enq _ d | .rem _ d | .acct d => d
  | .idle => 0

/-- Items removed by publishing threads. -/
def St.discarded (s : St α) : List α := (s.taken.filter (·.1.isSome)).map (·.2)

structure Inv (discard : Bool) (s : St α) : Prop where
  split : s.published = s.taken.map (·.2) ++ s.q
  poll : (s.taken.filter (·.1.isNone)).map (·.2) = s.emitted ++ s.hand
  hand1 : s.hand.length ≤ 1
  count : ∀ t, (s.taken.filterMap (·.1)).count t = s.accd.count t + (s.pc t).d
  statsEq : s.stats = s.accd.length
  block : discard = false → (∀ e ∈ s.taken, e.1 = none) ∧ ∀ t, (∀ x d, s.pc t ≠ .rem x d) ∧ ∀ d, s.pc t ≠ .acct d

theorem Inv.init (discard : Bool) : Inv discard (St.init : St α) := by
  constructor <;> simp [St.init, Pc.d]

theorem Inv.step {discard : Bool} {s s' : St α} {a : Act α} (hi : Inv discard s) (hs : CQ.step discard s a = some s') : Inv discard s' := by
  have hpc : ∀ (t : Nat) (p : Pc α), p.d = (s.pc t).d → ∀ u, (upd s.pc t p u).d = (s.pc u).d := by
    intro t p h u; rw [upd_apply]; split
    · next e => rw [e, h]
    · rfl
  have hb : ∀ (t : Nat) (p : Pc α), ((∀ x d, p ≠ .rem x d) ∧ ∀ d, p ≠ .acct d) → (∀ t, (∀ x d, s.pc t ≠ .rem x d) ∧ ∀ d, s.pc t ≠ .acct d) →
      ∀ u, (∀ x d, upd s.pc t p u ≠ .rem x d) ∧ ∀ d, upd s.pc t p u ≠ .acct d := by
    intro t p hp h u; rw [upd_apply]; split
    · exact hp
    · exact h u
  cases a with
  | publish t x =>
    simp only [CQ.step] at hs
    split at hs
    · next hp =>
      cases hs
      exact { hi with
        count := fun u => by show _ = _ + (upd s.pc t _ u).d; rw [hpc t _ (by rw [hp]; rfl) u]; exact hi.count u
        block := fun h => ⟨(hi.block h).1, hb t _ ⟨nofun, nofun⟩ (hi.block h).2⟩ }
    · cases hs
  | enq t ok =>
    simp only [CQ.step] at hs
    split at hs
    · next x d hp =>
      split at hs
      · cases hs
        exact { hi with
          split := by show s.published ++ [x] = _ ++ (s.q ++ [x]); rw [hi.split, List.append_assoc]
          count := fun u => by
            show _ = _ + (upd s.pc t _ u).d
            cases hd : discard with
            | true => rw [hpc t _ (by rw [hp]; rfl) u]; exact hi.count u
            | false =>
              have h1 := hi.count u
              have h2 := (hi.block hd).1
              have h3 : s.taken.filterMap (·.1) = [] := by
                rw [List.filterMap_eq_nil_iff]; exact h2
              rw [h3] at h1
              show (s.taken.filterMap (·.1)).count u = s.accd.count u + (upd s.pc t .idle u).d
              rw [h3]
              by_cases e : u = t
              · subst e; rw [upd_same]; simp only [List.count_nil, Pc.d] at h1 ⊢; omega
              · rw [upd_other _ _ e]; exact h1
          block := fun h => ⟨(hi.block h).1, hb t _ (by rw [h]; exact ⟨nofun, nofun⟩) (hi.block h).2⟩ }
      · cases hs
        exact { hi with
          count := fun u => by
            show _ = _ + (upd s.pc t _ u).d
            rw [hpc t _ (by rw [hp]; split <;> rfl) u]; exact hi.count u
          block := fun h => ⟨(hi.block h).1, hb t _ (by rw [h]; exact ⟨nofun, nofun⟩) (hi.block h).2⟩ }
    · cases hs
  | rem t seen =>
    simp only [CQ.step] at hs
    split at hs
    · next x d hp =>
      have hd : discard ≠ false := fun h => ((hi.block h).2 t).1 x d hp
      split at hs
      · next y q hq =>
        cases hs
        exact {
          split := by show s.published = _ ++ q; rw [hi.split, hq]; simp
          poll := by
            show ((s.taken ++ [(some t, y)]).filter _).map _ = s.emitted ++ s.hand
            rw [List.filter_append]; simp [hi.poll]
          hand1 := hi.hand1
          count := fun u => by
            show ((s.taken ++ [(some t, y)]).filterMap _).count u = s.accd.count u + (upd s.pc t _ u).d
            rw [List.filterMap_append, List.count_append, hi.count u, upd_apply]
            split
            · next e => subst e; rw [hp]; simp [Pc.d]; omega
            · next e => simp [Ne.symm e]
          statsEq := hi.statsEq
          block := fun h => absurd h hd }
      · cases hs
        exact { hi with
          count := fun u => by show _ = _ + (upd s.pc t _ u).d; rw [hpc t _ (by rw [hp]; rfl) u]; exact hi.count u
          block := fun h => absurd h hd }
    · cases hs
  | account t =>
    simp only [CQ.step] at hs
    split at hs
    · next d hp =>
      cases hs
      exact { hi with
        count := fun u => by
          show _ = (s.accd ++ List.replicate d t).count u + (upd s.pc t _ u).d
          rw [hi.count u, List.count_append, List.count_replicate]
          by_cases e : u = t
          · subst e; rw [hp]; simp [Pc.d]
          · rw [upd_other _ _ e]; simp [Ne.symm e]
        statsEq := by show s.stats + d = (s.accd ++ List.replicate d t).length; rw [hi.statsEq]; simp
        block := fun h => ⟨(hi.block h).1, hb t _ ⟨nofun, nofun⟩ (hi.block h).2⟩ }
    · cases hs
  | poll seen =>
    simp only [CQ.step] at hs
    split at hs
    · next y q hh hq =>
      cases hs
      exact { hi with
        split := by show s.published = _ ++ q; rw [hi.split, hq]; simp
        poll := by
          show ((s.taken ++ [(none, y)]).filter _).map _ = s.emitted ++ [y]
          have := hi.poll; rw [hh] at this
          rw [List.filter_append]; simp [this]
        hand1 := by simp
        count := fun u => by
          show ((s.taken ++ [(none, y)]).filterMap _).count u = _
          rw [List.filterMap_append]; simp [hi.count u]
        block := fun h => ⟨fun e he => by
          rcases List.mem_append.mp he with he | he
          · exact (hi.block h).1 e he
          · simp at he; rw [he], (hi.block h).2⟩ }
    · cases hs; exact hi
    · cases hs
  | emit =>
    simp only [CQ.step] at hs
    split at hs
    · next y l hh =>
      cases hs
      have hl : l = [] := by
        have := hi.hand1; rw [hh] at this
        cases l with
        | nil => rfl
        | cons => simp at this
      exact { hi with
        poll := by show _ = (s.emitted ++ [y]) ++ []; rw [hi.poll, hh, hl]; simp
        hand1 := by simp }
    · cases hs

theorem Reach.inv {discard : Bool} {s : St α} (h : Reach discard s) : Inv discard s := by
  induction h with
  | init => exact Inv.init _
  | step a _ _ hs ih => exact ih.step hs

/-- Events reach the emitter in the order in which they were accepted, none twice and none that was not published.
Missing: executions in which two threads publish at the same time (C63_violation_shared_token). -/
theorem C63_in_order_partial {discard : Bool} {s : St α} (h : Reach discard s) : s.emitted.Sublist s.published := by
  have hi := h.inv
  have h1 : s.emitted.Sublist (s.emitted ++ s.hand) := List.sublist_append_left _ _
  rw [← hi.poll] at h1
  rw [hi.split]
  exact (h1.trans ((List.filter_sublist).map _)).trans (List.sublist_append_left _ _)

/-- Every accepted event is exactly once either emitted, in the hand of the poller, in the queue or discarded.
Missing: executions in which two threads publish at the same time (C63_violation_shared_token). -/
theorem C63_conservation_partial {discard : Bool} {s : St α} (h : Reach discard s) :
    s.published.Perm (s.emitted ++ s.hand ++ s.q ++ s.discarded) := by
  have hi := h.inv
  rw [hi.split, ← hi.poll]
  have h1 : s.taken.Perm (s.taken.filter (·.1.isNone) ++ s.taken.filter (·.1.isSome)) := by
    have : (fun e : Option Nat × α => e.1.isSome) = fun e => !(e.1.isNone) := by funext e; cases e.1 <;> rfl
    rw [this]
    exact (List.filter_append_perm (fun e : Option Nat × α => e.1.isNone) s.taken).symm
  have h2 := h1.map (·.2)
  rw [List.map_append] at h2
  refine (h2.append_right s.q).trans ?_
  rw [List.append_assoc, List.append_assoc]
  exact List.Perm.append_left _ List.perm_append_comm

/-- Discarding removes the oldest events: what is left in the queue is the newest part of what was accepted.
Missing: executions in which two threads publish at the same time (C63_violation_shared_token). -/
theorem C63_discards_oldest_partial {discard : Bool} {s : St α} (h : Reach discard s) : s.q <:+ s.published :=
  ⟨_, h.inv.split.symm⟩

/-- The statistics count the discarded events exactly whenever no call of `publish` is in progress.
Missing: executions in which two threads publish at the same time (C63_violation_shared_token). -/
theorem C63_statistics_partial {discard : Bool} {s : St α} (h : Reach discard s) (hq : ∀ t, s.pc t = .idle) : s.stats = s.discarded.length := by
  have hi := h.inv
  have hp : (s.taken.filterMap (·.1)).Perm s.accd := by
    rw [List.perm_iff_count]
    intro t
    rw [hi.count t, hq t]; rfl
  have hl : ∀ l : List (Option Nat × α), (l.filterMap (·.1)).length = ((l.filter (·.1.isSome)).map (·.2)).length := by
    intro l
    induction l with
    | nil => rfl
    | cons e l ih => obtain ⟨o, x⟩ := e; cases o <;> simp_all
  rw [hi.statsEq, ← hp.length_eq]
  exact hl s.taken

/-- Without `discardItemsWhenFull` nothing is discarded: with the poller done, the emitter has got everything, in order.
Missing: executions in which two threads publish at the same time (C63_violation_shared_token). -/
theorem C63_blocking_complete_partial {s : St α} (h : Reach false s) : s.discarded = [] ∧ s.published = s.emitted ++ s.hand ++ s.q := by
  have hi := h.inv
  have hb := (hi.block rfl).1
  constructor
  · unfold St.discarded
    rw [List.filter_eq_nil_iff.mpr, List.map_nil]
    intro e he; rw [hb e he]; simp
  · rw [hi.split, ← hi.poll, List.filter_eq_self.mpr]
    intro e he; rw [hb e he]; rfl

/-- `publish` has returned: the event was accepted (in blocking mode and in discarding mode alike): the call ends only through `try_enqueue`. -/
theorem C63_publish_accepts {discard : Bool} {s s' : St α} {a : Act α} {t d : Nat} {x : α} (hp : s.pc t = .enq x d ∨ s.pc t = .rem x d)
    (hs : step discard s a = some s') :
    (∃ d', s'.pc t = .enq x d' ∨ s'.pc t = .rem x d') ∨ (s'.q = s.q ++ [x] ∧ s'.published = s.published ++ [x]) := by
  cases a with
  | publish u y =>
    simp only [step] at hs
    split at hs
    · next hu =>
      cases hs
      have : t ≠ u := by rintro rfl; rw [hu] at hp; rcases hp with hp | hp <;> cases hp
      exact .inl ⟨d, by simpa only [upd_other _ _ this] using hp⟩
    · cases hs
  | enq u ok =>
    simp only [step] at hs
    split at hs
    · next y e hu =>
      by_cases ht : t = u
      · subst ht
        rw [hu] at hp
        have : y = x := by rcases hp with hp | hp <;> cases hp; rfl
        subst this
        split at hs
        · cases hs; exact .inr ⟨rfl, rfl⟩
        · cases hs; refine .inl ⟨e, ?_⟩
          simp only [upd_same]; cases discard <;> simp
      · split at hs <;> (cases hs; exact .inl ⟨d, by simpa only [upd_other _ _ ht] using hp⟩)
    · cases hs
  | rem u seen =>
    simp only [step] at hs
    split at hs
    · next y e hu =>
      by_cases ht : t = u
      · subst ht
        rw [hu] at hp
        have : y = x := by rcases hp with hp | hp <;> cases hp; rfl
        subst this
        split at hs <;> (cases hs; exact .inl ⟨_, .inl (upd_same _ _ _)⟩)
      · split at hs <;> (cases hs; exact .inl ⟨d, by simpa only [upd_other _ _ ht] using hp⟩)
    · cases hs
  | account u =>
    simp only [step] at hs
    split at hs
    · next hu =>
      cases hs
      have : t ≠ u := by rintro rfl; rw [hu] at hp; rcases hp with hp | hp <;> cases hp
      exact .inl ⟨d, by simpa only [upd_other _ _ this] using hp⟩
    · cases hs
  | poll seen =>
    simp only [step] at hs
    split at hs <;> (try cases hs) <;> exact .inl ⟨d, hp⟩
  | emit =>
    simp only [step] at hs
    split at hs <;> (try cases hs)
    exact .inl ⟨d, hp⟩

/-- No race on the token if only one thread is inside `publish` (the only use for which the theorems above speak about complete executions). -/
theorem C63_one_publisher_no_race {s : St α} {t : Nat} (h : ∀ u, u ≠ t → s.pc u = .idle) : ¬ s.TokenRace := by
  rintro ⟨u, v, x, d, y, e, huv, hu, hv⟩
  by_cases e1 : u = t
  · have : v ≠ t := fun e2 => huv (e1.trans e2.symm)
    rw [h v this] at hv; cases hv
  · rw [h u e1] at hu; cases hu

/-- Violation: two threads publish through the same publisher (there is one publisher and one token per provider) and are in `try_enqueue` with the
same producer token at the same time, which the queue does not allow. -/
theorem C63_violation_shared_token (discard : Bool) : ∃ s : St Nat, Reach discard s ∧ s.TokenRace := by
  refine ⟨_, .step (.publish 2 20) (.step (.publish 1 10) .init ?_ rfl) ?_ rfl, 1, 2, 10, 0, 20, 0, by decide, by decide, by decide⟩
  · exact C63_one_publisher_no_race (t := 0) (fun _ _ => rfl)
  · refine C63_one_publisher_no_race (t := 1) (fun u hu => ?_)
    exact upd_other _ _ hu

/-- A run in discarding mode: the queue refuses once, the oldest event is discarded and counted. -/
theorem C63_example : (run true St.init [.publish 1 10, .enq 1 true, .account 1, .publish 1 11, .enq 1 true, .account 1, .publish 1 12, .enq 1 false,
    .rem 1 true, .enq 1 true, .account 1, .poll true, .emit, .poll false, .poll true, .emit]).map (fun s => (s.emitted, s.q, s.stats, s.discarded)) =
    some ([11, 12], [], 1, [10]) := by decide +kernel

end Verif.CQ
