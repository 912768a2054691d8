import Verif.Lemmas.MultiEmitter

/-! Properties of `UnsafeMultiListenerEventEmitter` (C17, C18). -/

namespace Verif.MultiEE
open Verif MultiSpec

variable {κ β ε : Type} [DecidableEq κ]

/-- **C17**: for every history of calls the emitter gives exactly the results of the registry specification: emissions call
the live listeners of that name once each in registration order, registering a used listener name returns the id of the existing
listener and changes nothing; no null callback is ever called. -/
theorem C17_refines_registry (os : List (Op κ β ε)) :
    (MultiEE.runOps (St.init : St κ β) os).2 = (MultiSpec.runOps Reg.init os).2 :=
  (refine_run os _ _ Inv.init).1

theorem C17_never_crashes (os : List (Op κ β ε)) : Res.crash ∉ (MultiEE.runOps (St.init : St κ β) os).2 := by
  rw [C17_refines_registry]
  have : ∀ (os : List (Op κ β ε)) (r : Reg κ β), Res.crash ∉ (MultiSpec.runOps r os).2 := by
    intro os
    induction os with
    | nil => intro r; simp [MultiSpec.runOps]
    | cons o os ih =>
      intro r
      simp only [MultiSpec.runOps, List.mem_cons, not_or]
      refine ⟨?_, ih _⟩
      cases o <;> simp [MultiSpec.apply]
      split <;> simp
  exact this os _

/-- **C17**: ids of live listeners are distinct, and so are their names; an id is in at most one subscriber list, once. -/
theorem C17_live_ids_distinct (os : List (Op κ β ε)) :
    ((MultiSpec.runOps (Reg.init : Reg κ β) os).1.live.map Entry.id).Nodup ∧
    ((MultiSpec.runOps (Reg.init : Reg κ β) os).1.live.map Entry.lname).Nodup ∧
    (∀ k k' id, id ∈ (MultiEE.runOps (St.init : St κ β) os).1.subs k →
      id ∈ (MultiEE.runOps (St.init : St κ β) os).1.subs k' → k = k') ∧
    (∀ k, ((MultiEE.runOps (St.init : St κ β) os).1.subs k).Nodup) := by
  have h := (refine_run os (St.init : St κ β) _ Inv.init).2
  refine ⟨h.nodup, h.inj, ?_, ?_⟩
  · intro k k' id hk hk'
    rw [h.subs] at hk hk'
    obtain ⟨x, hx, rfl⟩ := List.mem_map.mp hk
    obtain ⟨y, hy, hxy⟩ := List.mem_map.mp hk'
    have hx' := List.mem_filter.mp hx
    have hy' := List.mem_filter.mp hy
    have : y = x := List.inj_on_of_nodup_map h.nodup hy'.1 hx'.1 hxy
    subst this
    have h1 : y.sub = k := by simpa using hx'.2
    have h2 : y.sub = k' := by simpa using hy'.2
    rw [← h1, h2]
  · intro k
    rw [h.subs]
    exact ((List.filter_sublist).map Entry.id).nodup h.nodup

/-- **C17**: removing an id that is not live has no effect: every continuation gives the same results as without the removal. -/
theorem C17_remove_unknown (pre post : List (Op κ β ε)) (c : Bool) (id : Nat)
    (hid : ∀ x ∈ (MultiSpec.runOps (Reg.init : Reg κ β) pre).1.live, x.id ≠ id) :
    (MultiEE.runOps (MultiEE.apply (MultiEE.runOps (St.init : St κ β) pre).1 (.remove c id : Op κ β ε)).1 post).2 =
      (MultiEE.runOps (MultiEE.runOps (St.init : St κ β) pre).1 post).2 := by
  have h := (refine_run pre (St.init : St κ β) _ Inv.init).2
  have h' := (h.apply (.remove c id : Op κ β ε)).2
  have e : (MultiSpec.apply (MultiSpec.runOps (Reg.init : Reg κ β) pre).1 (.remove c id : Op κ β ε)).1 =
      (MultiSpec.runOps Reg.init pre).1 := by
    simp only [MultiSpec.apply]
    have : (MultiSpec.runOps (Reg.init : Reg κ β) pre).1.live.filter (fun x => decide (x.id ≠ id)) =
        (MultiSpec.runOps (Reg.init : Reg κ β) pre).1.live := by
      rw [List.filter_eq_self]; intro x hx; simpa using hid x hx
    rw [this]
  rw [e] at h'
  rw [(refine_run post _ _ h').1, (refine_run post _ _ h).1]

example : (MultiEE.runOps (St.init : St Nat Char)
      [.on true 1 9 'a', .on false 2 9 'b', .on true 1 8 'c', .emit 9 true, .remove true 0, .on true 1 9 'd',
        .emit 9 false, .emit 8 true]).2 =
    [.id 0, .id 1, .id 0, .calls [(0, 'a', true), (1, 'b', true)], .done, .id 2,
      .calls [(1, 'b', false), (2, 'd', false)], .calls []] := by decide +kernel

/-- **C17**: consequence of the name rule that a user may not expect: registering a listener under a name used for another
event does not register it for the new event. -/
theorem C17_name_shared_between_events :
    (MultiEE.runOps (St.init : St Nat Char) [.on true 1 9 'a', .on true 1 8 'b', .emit 8 ()]).2 =
      [.id 0, .id 0, .calls []] := by decide +kernel

/-- **C18** (part): in histories without removals in which every listener was registered with a container,
`getListenerStats` gives the statistics of every live listener and null for every other id.
Missing: histories with removals or listeners without container, where it fails (`C18_stats_after_removal`, `C18_stale_stats`). -/
theorem C18_stats_partial (os : List (Op κ β ε))
    (ho : ∀ o ∈ os, (∀ c id, o ≠ .remove c id) ∧ o ≠ .removeAll ∧ (∀ l n cb, o ≠ .on false l n cb)) (id : Nat) :
    ((∃ x ∈ (MultiSpec.runOps (Reg.init : Reg κ β) os).1.live, x.id = id) →
      ∃ v, getStats (MultiEE.runOps (St.init : St κ β) os).1 id = .some v) ∧
    ((∀ x ∈ (MultiSpec.runOps (Reg.init : Reg κ β) os).1.live, x.id ≠ id) →
      getStats (MultiEE.runOps (St.init : St κ β) os).1 id = .null) := by
  have h := (refine_run os (St.init : St κ β) _ Inv.init).2
  have hs : SInv (MultiEE.runOps (St.init : St κ β) os).1 :=
    SInv.run ⟨by simp [St.init], by simp [St.init]⟩ os ho
  have hl : (MultiEE.runOps (St.init : St κ β) os).1.stats.length = (MultiEE.runOps (St.init : St κ β) os).1.fns.length := by
    have := congrArg List.length hs.keys
    simpa using this
  constructor
  · rintro ⟨x, hx, rfl⟩
    have hb := h.bound x hx
    rw [← h.len] at hb
    obtain ⟨v, hv⟩ := lookup_isSome (l := (MultiEE.runOps (St.init : St κ β) os).1.stats) (id := x.id)
      (by rw [hs.keys]; simpa using hb)
    refine ⟨v, ?_⟩
    unfold getStats
    rw [if_neg (by omega), hv]
  · intro hx
    have hge : id ≥ (MultiSpec.runOps (Reg.init : Reg κ β) os).1.next := by
      have hr := live_range os (fun o h => ⟨(ho o h).1, (ho o h).2.1⟩) (Reg.init : Reg κ β) (by simp [Reg.init])
      by_contra hlt
      have : id ∈ List.range (MultiSpec.runOps (Reg.init : Reg κ β) os).1.next := by simp; omega
      rw [← hr] at this
      obtain ⟨x, hx', hxid⟩ := List.mem_map.mp this
      exact hx x hx' hxid
    unfold getStats
    rw [if_pos (by rw [hl, h.len]; exact hge)]

/-- **C18**: discarding an event of a name adds one to the statistics of the listeners of that name only. -/
theorem C18_discard_counts (s : St κ β) (n : κ) (id v : Nat) (h : getStats s id = .some v) :
    getStats (discard s n) id = .some (if id ∈ s.subs n then v + 1 else v) := by
  unfold getStats at *
  simp only [discard, List.length_map]
  split at h
  · cases h
  · rename_i hl
    rw [if_neg hl]
    have := lookup_map_inc s.stats id (fun i => decide (i ∈ s.subs n))
    simp only [decide_eq_true_eq] at this
    rw [this]
    split at h
    · cases h
    · rename_i w hw
      cases h
      rw [hw]; rfl

/-- **C18**: once a live listener is removed with the container, its statistics are not handed out any more. -/
theorem C18_removed_stats_gone (os : List (Op κ β ε)) (id : Nat)
    (hx : ∃ x ∈ (MultiSpec.runOps (Reg.init : Reg κ β) os).1.live, x.id = id) (v : Nat) :
    getStats (remove (MultiEE.runOps (St.init : St κ β) os).1 true id) id ≠ .some v := by
  have h := (refine_run os (St.init : St κ β) _ Inv.init).2
  obtain ⟨x, hx, rfl⟩ := hx
  have hb := h.bound x hx
  rw [← h.len] at hb
  have hn : (MultiEE.runOps (St.init : St κ β) os).1.names.any (fun p => p.2 == x.id) = true := by
    rw [h.names]
    simp only [List.any_map, List.any_eq_true]
    exact ⟨x, hx, by simp⟩
  unfold getStats remove
  rw [if_pos hb]
  simp only [hn, Bool.and_true, if_true]
  split
  · simp
  · have : List.lookup x.id ((MultiEE.runOps (St.init : St κ β) os).1.stats.filter (fun p => decide (p.1 ≠ x.id))) = none := by
      rw [List.lookup_eq_none_iff]
      intro p hp
      have := (List.mem_filter.mp hp).2
      simp only [decide_eq_true_eq] at this
      simpa using fun e => this e.symm
    rw [this]
    simp

/-- **C18**: removing an id that is not live leaves every statistics as it was, and so does removing without the container. -/
theorem C18_remove_unknown_keeps_stats (os : List (Op κ β ε)) (c : Bool) (id : Nat)
    (hx : c = false ∨ ∀ x ∈ (MultiSpec.runOps (Reg.init : Reg κ β) os).1.live, x.id ≠ id) (j : Nat) :
    getStats (remove (MultiEE.runOps (St.init : St κ β) os).1 c id) j = getStats (MultiEE.runOps (St.init : St κ β) os).1 j := by
  have h := (refine_run os (St.init : St κ β) _ Inv.init).2
  have hn : (c && (MultiEE.runOps (St.init : St κ β) os).1.names.any (fun p => p.2 == id)) = false := by
    rcases hx with rfl | hx
    · rfl
    · rw [h.names]
      simp only [List.any_map, Bool.and_eq_false_iff]
      right
      rw [List.any_eq_false]
      intro x hm
      simpa using hx x hm
  unfold getStats remove
  split
  · simp only [hn]; rfl
  · rfl

example : getStats (remove (MultiEE.runOps (St.init : St Nat Char)
      [.on true 1 9 'a', (.discard 9 : Op Nat Char Unit)]).1 true 0) 0 = .null ∧
    getStats (remove (MultiEE.runOps (St.init : St Nat Char)
      [.on true 1 9 'a', (.discard 9 : Op Nat Char Unit)]).1 false 0) 0 = .some 1 := by decide +kernel

/-- **C18 fails in general** (1): after one of two listeners is removed, asking for the other one gives null, and asking
for the removed one throws `std::out_of_range`. -/
theorem C18_stats_after_removal :
    let s := (MultiEE.runOps (St.init : St Nat Char) [.on true 1 9 'a', .on true 2 9 'b', (.remove true 0 : Op Nat Char Unit)]).1
    getStats s 1 = .null ∧ getStats s 0 = .outOfRange := by decide +kernel

/-- **C18 fails in general** (2): after `removeAllListeners`, a new listener registered without container gets the
statistics of the old listener with the same id. -/
theorem C18_stale_stats :
    let s := (MultiEE.runOps (St.init : St Nat Char)
      [.on true 1 9 'a', .discard 9, .removeAll, (.on false 2 7 'b' : Op Nat Char Unit)]).1
    getStats s 0 = .some 1 := by decide +kernel

end Verif.MultiEE
