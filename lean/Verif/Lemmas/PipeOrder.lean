import Verif.Lemmas.Pipeline

/-! Where every publication of the pipeline is, and the order of delivery. -/

namespace Verif.Pipe
open Verif Verif.Pool

variable {T : Type}

/-- Publications that left the queue (delivered or dropped) or were refused. -/
def St.gone (s : St T) : List Nat := s.queue.map (·.2) ++ (s.taken ++ s.lost)

structure Acct (c : Cfg T) (s : St T) : Prop where
  nlost : s.discarded = s.lost.length
  place : ∀ k, k < s.pubs.length ↔ (∃ t o, s.pc t = .made o k) ∨ k ∈ s.gone
  nodup : s.gone.Nodup
  made : ∀ t o k, s.pc t = .made o k → k ∉ s.gone ∧ t < c.threads
  inj : ∀ t t' o o' k, s.pc t = .made o k → s.pc t' = .made o' k → t = t'
  ord : ∃ out : List (Nat × Bool), s.order = out.map (·.1) ++ s.queue.map (·.2) ∧ s.taken = (out.filter (·.2)).map (·.1) ∧
    (c.policy = .dropOldest → s.lost = (out.filter (!·.2)).map (·.1)) ∧ (c.policy ≠ .dropOldest → ∀ x ∈ out, x.2 = true)
  block : c.policy = .block → s.lost = []

/-- A step that moves no event. -/
theorem Acct.still {c : Cfg T} {s s' : St T} (h : Acct c s) (h1 : s'.discarded = s.discarded) (h2 : s'.lost = s.lost) (h3 : s'.pubs = s.pubs)
    (h4 : s'.queue = s.queue) (h5 : s'.taken = s.taken) (h6 : s'.order = s.order) (h7 : ∀ t o k, s'.pc t = .made o k ↔ s.pc t = .made o k) : Acct c s' := by
  have hg : s'.gone = s.gone := by simp only [St.gone, h2, h4, h5]
  refine ⟨by rw [h1, h2]; exact h.nlost, fun k => ?_, by rw [hg]; exact h.nodup, fun t o k hk => by rw [hg]; exact h.made t o k ((h7 t o k).mp hk),
    fun t t' o o' k a b => h.inj t t' o o' k ((h7 _ _ _).mp a) ((h7 _ _ _).mp b), ?_, fun hb => by rw [h2]; exact h.block hb⟩
  · rw [h3, hg, h.place k]
    simp only [h7]
  · rw [h6, h4, h5, h2]; exact h.ord

theorem Acct.init (c : Cfg T) : Acct c (St.init c) := by
  refine ⟨rfl, fun k => ?_, List.nodup_nil, nofun, nofun, ⟨[], rfl, rfl, fun _ => rfl, fun _ => nofun⟩, fun _ => rfl⟩
  simp [St.init, St.gone]

theorem Acct.step {c : Cfg T} {s s' : St T} {a : Act T} (h : Acct c s) (hs : Pipe.step c s a = some s') : Acct c s' := by
  have hpc : ∀ (t : Nat) (p : Pc T), (∀ o k, s.pc t ≠ .made o k) → (∀ o k, p ≠ .made o k) →
      ∀ u o k, upd s.pc t p u = .made o k ↔ s.pc u = .made o k := by
    intro t p h1 h2 u o k
    by_cases e : u = t
    · subst e; simp only [upd_same]; exact ⟨fun hh => absurd hh (h2 o k), fun hh => absurd hh (h1 o k)⟩
    · simp only [upd_other _ _ e]
  have hdone : ∀ {t o k : Nat}, s.pc t = .made o k → ∀ u o' k', upd s.pc t (.done o) u = .made o' k' ↔ u ≠ t ∧ s.pc u = .made o' k' := by
    intro t o k _ u o' k'
    by_cases e : u = t
    · subst e; simp
    · simp [upd_other _ _ e, e]
  cases a with
  | acquire t call =>
    simp only [Pipe.step] at hs
    split at hs
    · split at hs
      · next hp =>
        have hi : ∀ o k, s.pc t ≠ .made o k := fun o k e => by rw [hp] at e; cases e
        split at hs
        · split at hs
          · cases hs; exact h.still rfl rfl rfl rfl rfl rfl (hpc t _ hi nofun)
          · cases hs; exact h.still rfl rfl rfl rfl rfl rfl (hpc t _ hi nofun)
        · cases hs; exact h.still rfl rfl rfl rfl rfl rfl (hpc t _ hi nofun)
      · cases hs
    · cases hs
  | write t =>
    simp only [Pipe.step] at hs
    split at hs
    · next ht =>
      split at hs
      · next o call hp =>
        cases hs
        have hlen : ∀ t o k, s.pc t = .made o k → k < s.pubs.length := fun t o k hk => (h.place k).mpr (Or.inl ⟨t, o, hk⟩)
        have hmk : ∀ u o' k', upd s.pc t (.made o s.pubs.length) u = .made o' k' ↔ (u = t ∧ o' = o ∧ k' = s.pubs.length) ∨ s.pc u = .made o' k' := by
          intro u o' k'
          by_cases e : u = t
          · subst e
            simp only [upd_same, hp, Pc.made.injEq, true_and]
            constructor
            · rintro ⟨rfl, rfl⟩; exact Or.inl ⟨rfl, rfl⟩
            · rintro (⟨rfl, rfl⟩ | h)
              · exact ⟨rfl, rfl⟩
              · cases h
          · simp [upd_other _ _ e, e]
        have hnot : s.pubs.length ∉ s.gone := fun hm => Nat.lt_irrefl _ ((h.place _).mpr (Or.inr hm))
        refine ⟨h.nlost, fun k => ?_, h.nodup, fun u o' k hk => ?_, fun u u' o1 o2 k h1 h2 => ?_, h.ord, h.block⟩
        · have hpl := h.place k
          simp only [List.length_append, List.length_singleton, hmk]
          constructor
          · intro hk
            by_cases e : k = s.pubs.length
            · exact Or.inl ⟨t, o, Or.inl ⟨rfl, rfl, e⟩⟩
            · rcases hpl.mp (by omega) with ⟨u, o', hu⟩ | hg
              · exact Or.inl ⟨u, o', Or.inr hu⟩
              · exact Or.inr hg
          · rintro (⟨u, o', ⟨_, _, rfl⟩ | hu⟩ | hg)
            · omega
            · have := hlen u o' k hu; omega
            · have := hpl.mpr (Or.inr hg); omega
        · rcases (hmk u o' k).mp hk with ⟨rfl, rfl, rfl⟩ | hu
          · exact ⟨hnot, ht⟩
          · exact h.made u o' k hu
        · rcases (hmk u o1 k).mp h1 with ⟨rfl, rfl, rfl⟩ | hu
          · rcases (hmk u' o2 _).mp h2 with ⟨rfl, _, _⟩ | hu'
            · rfl
            · exact absurd (hlen _ _ _ hu') (Nat.lt_irrefl _)
          · rcases (hmk u' o2 _).mp h2 with ⟨rfl, _, rfl⟩ | hu'
            · exact absurd (hlen _ _ _ hu) (Nat.lt_irrefl _)
            · exact h.inj u u' o1 o2 k hu hu'
      · cases hs
    · cases hs
  | push t =>
    simp only [Pipe.step] at hs
    split at hs
    · split at hs
      · next o k hp =>
        split at hs
        · cases hs
          have hg : ∀ (pl : Option Pool) (rc : Nat → Nat), St.gone { s with pool := pl, queue := s.queue ++ [(o, k)], rc := rc, pc := upd s.pc t (.done o), order := s.order ++ [k] } =
              s.queue.map (·.2) ++ k :: (s.taken ++ s.lost) := by intro _ _; simp [St.gone]
          have hk := (h.made t o k hp).1
          have hmem : ∀ j, j ∈ s.queue.map (·.2) ++ k :: (s.taken ++ s.lost) ↔ j = k ∨ j ∈ s.gone := by
            intro j
            simp only [St.gone, List.mem_append, List.mem_cons]
            constructor
            · rintro (a | rfl | b)
              · exact Or.inr (Or.inl a)
              · exact Or.inl rfl
              · exact Or.inr (Or.inr b)
            · rintro (rfl | a | b)
              · exact Or.inr (Or.inl rfl)
              · exact Or.inl a
              · exact Or.inr (Or.inr b)
          refine ⟨h.nlost, fun j => ?_, ?_, fun u o' j hj => ?_, fun u u' o1 o2 j h1 h2 => ?_, ?_, h.block⟩
          · rw [hg, hmem]
            have hpl := h.place j
            simp only [hdone hp]
            rw [hpl]
            constructor
            · rintro (⟨u, o', hu⟩ | hj)
              · by_cases e : u = t
                · subst e; rw [hp] at hu; cases hu; exact Or.inr (Or.inl rfl)
                · exact Or.inl ⟨u, o', e, hu⟩
              · exact Or.inr (Or.inr hj)
            · rintro (⟨u, o', _, hu⟩ | rfl | hj)
              · exact Or.inl ⟨u, o', hu⟩
              · exact Or.inl ⟨t, o, hp⟩
              · exact Or.inr hj
          · rw [hg]
            exact List.nodup_middle.mpr (List.nodup_cons.mpr ⟨hk, h.nodup⟩)
          · rw [hg, hmem]
            obtain ⟨h1, h2⟩ := (hdone hp u o' j).mp hj
            refine ⟨?_, (h.made u o' j h2).2⟩
            rintro (rfl | hj)
            · exact h1 (h.inj _ _ _ _ _ h2 hp)
            · exact (h.made u o' j h2).1 hj
          · exact h.inj u u' o1 o2 j ((hdone hp _ _ _).mp h1).2 ((hdone hp _ _ _).mp h2).2
          · obtain ⟨out, a, b, d, e⟩ := h.ord
            refine ⟨out, ?_, b, d, e⟩
            show s.order ++ [k] = out.map (·.1) ++ (s.queue ++ [(o, k)]).map (·.2)
            rw [a]; simp
        · cases hs
      · cases hs
    · cases hs
  | dropOld t =>
    simp only [Pipe.step] at hs
    split at hs
    · next hc =>
      split at hs
      · next o' k' o k r hp hq =>
        cases hs
        have hg0 : s.gone = k :: (r.map (·.2) ++ (s.taken ++ s.lost)) := by simp [St.gone, hq]
        have hg : ∀ (x : St T), x.queue = r → x.taken = s.taken → x.lost = s.lost ++ [k] → x.gone.Perm s.gone := by
          intro x h1 h2 h3
          rw [hg0, St.gone, h1, h2, h3]
          have e : r.map (·.2) ++ (s.taken ++ (s.lost ++ [k])) = (r.map (·.2) ++ (s.taken ++ s.lost)) ++ [k] := by simp
          rw [e]
          exact List.perm_append_singleton _ _
        have hp' := hg { unref c { s with queue := r } o with discarded := s.discarded + 1, lost := s.lost ++ [k] } rfl rfl rfl
        refine ⟨by show s.discarded + 1 = (s.lost ++ [k]).length; rw [h.nlost]; simp, fun j => ?_, hp'.nodup_iff.mpr h.nodup, fun u o' j hj => ?_,
          h.inj, ?_, fun hb => ?_⟩
        · rw [hp'.mem_iff]; exact h.place j
        · rw [hp'.mem_iff]; exact h.made u o' j hj
        · obtain ⟨out, a, b, d, e⟩ := h.ord
          refine ⟨out ++ [(k, false)], ?_, ?_, fun hb => ?_, fun hb => absurd hc.2.1 hb⟩
          · show s.order = (out ++ [(k, false)]).map (·.1) ++ r.map (·.2)
            rw [a, hq]; simp
          · show s.taken = _
            rw [b]; simp
          · show s.lost ++ [k] = _
            rw [d hb]; simp
        · rw [hc.2.1] at hb; cases hb
      · cases hs
    · cases hs
  | refuse t =>
    simp only [Pipe.step] at hs
    split at hs
    · next hc =>
      split at hs
      · next o k hp =>
        cases hs
        have hk := (h.made t o k hp).1
        have hp' : List.Perm (St.gone { s with discarded := s.discarded + 1, pc := upd s.pc t (.done o), lost := s.lost ++ [k] }) (k :: s.gone) := by
          have e : St.gone { s with discarded := s.discarded + 1, pc := upd s.pc t (.done o), lost := s.lost ++ [k] } = s.gone ++ [k] := by simp [St.gone]
          rw [e]
          exact List.perm_append_singleton _ _
        refine ⟨by show s.discarded + 1 = (s.lost ++ [k]).length; rw [h.nlost]; simp, fun j => ?_, hp'.nodup_iff.mpr (List.nodup_cons.mpr ⟨hk, h.nodup⟩),
          fun u o' j hj => ?_, fun u u' o1 o2 j h1 h2 => ?_, ?_, fun hb => ?_⟩
        · rw [hp'.mem_iff, List.mem_cons]
          simp only [hdone hp]
          show j < s.pubs.length ↔ _
          rw [h.place j]
          constructor
          · rintro (⟨u, o', hu⟩ | hj)
            · by_cases e : u = t
              · subst e; rw [hp] at hu; cases hu; exact Or.inr (Or.inl rfl)
              · exact Or.inl ⟨u, o', e, hu⟩
            · exact Or.inr (Or.inr hj)
          · rintro (⟨u, o', _, hu⟩ | rfl | hj)
            · exact Or.inl ⟨u, o', hu⟩
            · exact Or.inl ⟨t, o, hp⟩
            · exact Or.inr hj
        · rw [hp'.mem_iff, List.mem_cons]
          obtain ⟨h1, h2⟩ := (hdone hp u o' j).mp hj
          refine ⟨?_, (h.made u o' j h2).2⟩
          rintro (rfl | hj)
          · exact h1 (h.inj _ _ _ _ _ h2 hp)
          · exact (h.made u o' j h2).1 hj
        · exact h.inj u u' o1 o2 j ((hdone hp _ _ _).mp h1).2 ((hdone hp _ _ _).mp h2).2
        · obtain ⟨out, a, b, d, e⟩ := h.ord
          exact ⟨out, a, b, fun hb => (by rw [hc.2] at hb; cases hb), e⟩
        · rw [hc.2] at hb; cases hb
      · cases hs
    · cases hs
  | finish t =>
    simp only [Pipe.step] at hs
    split at hs
    · split at hs
      · next o hp =>
        cases hs
        exact h.still rfl rfl rfl rfl rfl rfl (hpc t _ (fun o k e => by rw [hp] at e; cases e) nofun)
      · cases hs
    · cases hs
  | take =>
    simp only [Pipe.step] at hs
    split at hs
    · next x r hh hq =>
      cases hs
      have hp' : List.Perm (St.gone { s with hand := [x], queue := r, taken := s.taken ++ [x.2] }) s.gone := by
        simp only [St.gone, hq, List.map_cons]
        have e : r.map (·.2) ++ (s.taken ++ [x.2] ++ s.lost) = (r.map (·.2) ++ s.taken) ++ x.2 :: s.lost := by simp
        rw [e]
        refine List.perm_middle.trans ?_
        simp
      refine ⟨h.nlost, fun j => by rw [hp'.mem_iff]; exact h.place j, hp'.nodup_iff.mpr h.nodup, fun u o' j hj => by rw [hp'.mem_iff]; exact h.made u o' j hj,
        h.inj, ?_, h.block⟩
      obtain ⟨out, a, b, d, e⟩ := h.ord
      refine ⟨out ++ [(x.2, true)], ?_, ?_, fun hb => ?_, fun hb y hy => ?_⟩
      · show s.order = (out ++ [(x.2, true)]).map (·.1) ++ r.map (·.2)
        rw [a, hq]; simp
      · show s.taken ++ [x.2] = _
        rw [b]; simp
      · show s.lost = _
        rw [d hb]; simp
      · rw [List.mem_append, List.mem_singleton] at hy
        rcases hy with hy | rfl
        · exact e hb y hy
        · rfl
    · cases hs
  | read =>
    simp only [Pipe.step] at hs
    split at hs
    · cases hs; exact h.still rfl rfl rfl rfl rfl rfl (fun _ _ _ => Iff.rfl)
    · cases hs
  | keep =>
    simp only [Pipe.step] at hs
    split at hs
    · split at hs
      · cases hs; exact h.still rfl rfl rfl rfl rfl rfl (fun _ _ _ => Iff.rfl)
      · cases hs
    · cases hs
  | readKept i =>
    simp only [Pipe.step] at hs
    split at hs
    · cases hs; exact h.still rfl rfl rfl rfl rfl rfl (fun _ _ _ => Iff.rfl)
    · cases hs
  | dropKept i =>
    simp only [Pipe.step] at hs
    split at hs
    · cases hs; exact h.still rfl rfl rfl rfl rfl rfl (fun _ _ _ => Iff.rfl)
    · cases hs
  | release =>
    simp only [Pipe.step] at hs
    split at hs
    · cases hs; exact h.still rfl rfl rfl rfl rfl rfl (fun _ _ _ => Iff.rfl)
    · cases hs

theorem Reach.acct {c : Cfg T} {s : St T} (h : Reach c s) : Acct c s := by
  induction h with
  | init => exact Acct.init c
  | step _ hs ih => exact ih.step hs

/-- What listeners have is among the delivered publications. -/
def Got (s : St T) : Prop :=
  (∀ x ∈ s.hand, x.2 ∈ s.taken) ∧ (∀ x ∈ s.kept, x.2 ∈ s.taken) ∧ ∀ x ∈ s.reads, x.1 ∈ s.taken

theorem Got.step {c : Cfg T} {s s' : St T} {a : Act T} (h : Got s) (hs : Pipe.step c s a = some s') : Got s' := by
  cases a with
  | take =>
    simp only [Pipe.step] at hs
    split at hs
    · next x r hh hq =>
      cases hs
      refine ⟨fun y hy => ?_, fun y hy => List.mem_append_left _ (h.2.1 y hy), fun y hy => List.mem_append_left _ (h.2.2 y hy)⟩
      rw [List.mem_singleton] at hy
      subst hy
      simp
    · cases hs
  | read =>
    simp only [Pipe.step] at hs
    split at hs
    · next o k _ hh =>
      cases hs
      refine ⟨h.1, h.2.1, fun y hy => ?_⟩
      rw [List.mem_append, List.mem_singleton] at hy
      rcases hy with hy | rfl
      · exact h.2.2 y hy
      · exact h.1 (o, k) (by rw [hh]; simp)
    · cases hs
  | keep =>
    simp only [Pipe.step] at hs
    split at hs
    · next o k _ hh =>
      split at hs
      · cases hs
        refine ⟨h.1, fun y hy => ?_, h.2.2⟩
        rw [List.mem_append, List.mem_singleton] at hy
        rcases hy with hy | rfl
        · exact h.2.1 y hy
        · exact h.1 (o, k) (by rw [hh]; simp)
      · cases hs
    · cases hs
  | readKept i =>
    simp only [Pipe.step] at hs
    split at hs
    · next o k hh =>
      cases hs
      refine ⟨h.1, h.2.1, fun y hy => ?_⟩
      rw [List.mem_append, List.mem_singleton] at hy
      rcases hy with hy | rfl
      · exact h.2.2 y hy
      · exact h.2.1 (o, k) (List.mem_of_getElem? hh)
    · cases hs
  | dropKept i =>
    simp only [Pipe.step] at hs
    split at hs
    · cases hs
      exact ⟨h.1, fun y hy => h.2.1 y (List.mem_of_mem_eraseIdx hy), h.2.2⟩
    · cases hs
  | release =>
    simp only [Pipe.step] at hs
    split at hs
    · next o k r hh =>
      cases hs
      exact ⟨fun y hy => h.1 y (by rw [hh]; exact List.mem_cons_of_mem _ hy), h.2⟩
    · cases hs
  | _ =>
    simp only [Pipe.step] at hs
    (repeat' split at hs) <;> first | cases hs | skip
    all_goals exact h

theorem Reach.got {c : Cfg T} {s : St T} (h : Reach c s) : Got s := by
  induction h with
  | init => exact ⟨nofun, nofun, nofun⟩
  | step _ hs ih => exact ih.step hs

theorem Reach.unbounded {c : Cfg T} {s : St T} (h : Reach c s) (hp : c.policy = .dropOldest) (hb : c.bound = 0) : s.lost = [] := by
  induction h with
  | init => rfl
  | step hr hs ih =>
    rename_i s s' a
    cases a with
    | dropOld t =>
      simp only [Pipe.step] at hs
      split at hs
      · next hc => omega
      · cases hs
    | refuse t =>
      simp only [Pipe.step] at hs
      split at hs
      · next hc => rw [hp] at hc; cases hc.2
      · cases hs
    | _ =>
      simp only [Pipe.step] at hs
      (repeat' split at hs) <;> first | cases hs | skip
      all_goals exact ih

end Verif.Pipe
