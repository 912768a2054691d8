import Verif.Lemmas.LockFreeStack

set_option linter.unusedSimpArgs false

namespace Verif.LFS

variable {α : Type}

theorem seqHist_nil_of {ops : List (Nat × Call α × Res α)} (h : ([] : List (Obs α)) = seqHist ops) :
    ops = [] := by
  cases ops with
  | nil => rfl
  | cons x r => obtain ⟨t, c, r'⟩ := x; simp [seqHist] at h

/-- Sequential histories of the atomic stack are those of a plain bounded stack. -/
theorem replay_of_specRun {cap : Nat} {a a' : Abs α} {h : List (Obs α)} (hr : SpecRun cap a h a') :
    (∀ ops, (∀ u, a.st u = .idle) → h = seqHist ops → Replay cap a.l ops) ∧
    (∀ t c r ops, (∀ u, u ≠ t → a.st u = .idle) → a.st t = .called c →
      h = .ret t c r :: seqHist ops → Replay cap a.l ((t, c, r) :: ops)) ∧
    (∀ t c r' r ops, (∀ u, u ≠ t → a.st u = .idle) → a.st t = .done c r' →
      h = .ret t c r :: seqHist ops → r = r' ∧ Replay cap a.l ops) := by
  induction hr with
  | nil a =>
    refine ⟨?_, ?_, ?_⟩
    · intro ops _ h
      rw [seqHist_nil_of h]; trivial
    · intro t c r ops _ _ h; simp at h
    · intro t c r' r ops _ _ h; simp at h
  | @cons a a1 a2 o h h1 _ ih =>
    obtain ⟨ih1, ih2, ih3⟩ := ih
    refine ⟨?_, ?_, ?_⟩
    · intro ops hid hh
      cases h1 with
      | inv t c hst =>
        cases ops with
        | nil => simp [seqHist] at hh
        | cons x rest =>
          obtain ⟨t', c', r'⟩ := x
          simp only [List.cons_append, List.nil_append, seqHist, List.cons.injEq, Obs.inv.injEq] at hh
          obtain ⟨⟨rfl, rfl⟩, hh⟩ := hh
          exact ih2 t c r' rest (by intro u hu; simp [hu, hid]) (by simp) hh
      | push t x hst => simp [hid] at hst
      | pushFull t x ts hst => simp [hid] at hst
      | pop t v l' hst => simp [hid] at hst
      | popEmpty t hst => simp [hid] at hst
      | ret t c r hst => simp [hid] at hst
    · intro t c r ops hid hc hh
      cases h1 with
      | inv t' c' hst => simp at hh
      | push t' x hst hlen =>
        have : t' = t := by
          by_cases e : t' = t
          · exact e
          · simp [hid t' e] at hst
        subst this
        rw [hc] at hst
        cases hst
        simp only [List.nil_append] at hh
        have := ih3 t' (.push x) (.pushed true) r ops (by intro u hu; simp [hu, hid]) (by simp) hh
        exact Or.inl ⟨hlen, this.1, this.2⟩
      | pushFull t' x ts hst hn ht hts hcap =>
        have : t' = t := by
          by_cases e : t' = t
          · exact e
          · simp [hid t' e] at hst
        subst this
        rw [hc] at hst
        cases hst
        simp only [List.nil_append] at hh
        have hts' : ts = [] := by
          cases ts with
          | nil => rfl
          | cons u us =>
            have hu := hts u (by simp)
            have : u ≠ t' := by intro e; subst e; simp at ht
            simp [hid u this, Status.inTransit] at hu
        subst hts'
        have := ih3 t' (.push x) (.pushed false) r ops (by intro u hu; simp [hu, hid]) (by simp) hh
        exact Or.inr ⟨by simpa using hcap, this.1, this.2⟩
      | pop t' v l' hst hl =>
        have : t' = t := by
          by_cases e : t' = t
          · exact e
          · simp [hid t' e] at hst
        subst this
        rw [hc] at hst
        cases hst
        simp only [List.nil_append] at hh
        have := ih3 t' .pop (.popped (some v)) r ops (by intro u hu; simp [hu, hid]) (by simp) hh
        rw [hl]
        exact ⟨this.1, this.2⟩
      | popEmpty t' hst hl =>
        have : t' = t := by
          by_cases e : t' = t
          · exact e
          · simp [hid t' e] at hst
        subst this
        rw [hc] at hst
        cases hst
        simp only [List.nil_append] at hh
        have := ih3 t' .pop (.popped none) r ops (by intro u hu; simp [hu, hid]) (by simp) hh
        simp only [hl] at this ⊢
        exact ⟨this.1, this.2⟩
      | ret t' c' r' hst =>
        simp only [List.cons_append, List.nil_append, List.cons.injEq, Obs.ret.injEq] at hh
        obtain ⟨⟨rfl, rfl, rfl⟩, _⟩ := hh
        simp [hc] at hst
    · intro t c r' r ops hid hd hh
      have key : ∀ t' c', a.st t' = .called c' → False := by
        intro t' c' e
        by_cases e' : t' = t
        · subst e'; simp [hd] at e
        · simp [hid t' e'] at e
      cases h1 with
      | inv t' c' hst => simp at hh
      | push t' x hst hlen => exact absurd hst (key _ _)
      | pushFull t' x ts hst => exact absurd hst (key _ _)
      | pop t' v l' hst => exact absurd hst (key _ _)
      | popEmpty t' hst => exact absurd hst (key _ _)
      | ret t' c' r1 hst =>
        simp only [List.cons_append, List.nil_append, List.cons.injEq, Obs.ret.injEq] at hh
        obtain ⟨⟨rfl, rfl, rfl⟩, hh⟩ := hh
        rw [hd] at hst
        cases hst
        refine ⟨rfl, ih1 ops ?_ hh⟩
        intro u
        by_cases hu : u = t'
        · subst hu; simp
        · simp [hu, hid]

theorem replay_pops_empty (cap : Nat) (l : List α) (ops : List (Nat × Call α × Res α))
    (h : Replay cap l ops) (hp : ∀ x ∈ ops, x.2.1 = .pop) (k : Nat) (hk : k = l.length)
    (hlen : k < ops.length) : (ops[k]).2.2 = .popped none := by
  induction l generalizing ops k with
  | nil =>
    subst hk
    cases ops with
    | nil => simp at hlen
    | cons x r =>
      obtain ⟨t, c, res⟩ := x
      have : c = .pop := hp (t, c, res) (by simp)
      subst this
      exact h.1
  | cons v l ih =>
    subst hk
    cases ops with
    | nil => simp at hlen
    | cons x r =>
      obtain ⟨t, c, res⟩ := x
      have : c = .pop := hp (t, c, res) (by simp)
      subst this
      simp only [List.length_cons, List.getElem_cons_succ]
      exact ih r h.2 (fun y hy => hp y (by simp [hy])) l.length rfl (by simpa using hlen)

/-! ### a call running alone terminates -/

/-- `t` running alone becomes idle within `n` steps. -/
def Done (s : State α) (t n : Nat) : Prop :=
  ∃ m, m ≤ n ∧ ∃ s' h, run s (List.replicate m (t, .go false)) = some (s', h) ∧ s'.pc t = .idle

theorem done_step {s s1 : State α} {t n : Nat} {o : List (Obs α)}
    (hs : step s t (.go false) = some (s1, o)) (h : Done s1 t n) : Done s t (n + 1) := by
  obtain ⟨m, hm, s', h', hr, hp⟩ := h
  refine ⟨m + 1, by omega, s', o ++ h', ?_, hp⟩
  simp [List.replicate_succ, run, hs, hr]

theorem done_mono {s : State α} {t n m : Nat} (h : Done s t n) (hnm : n ≤ m) : Done s t m := by
  obtain ⟨k, hk, r⟩ := h
  exact ⟨k, by omega, r⟩

theorem done_idle {s : State α} {t n : Nat} (h : s.pc t = .idle) : Done s t n :=
  ⟨0, by omega, s, [], rfl, h⟩

theorem done_pLinked_fresh {s : State α} {t : Nat} {c : Call α} {i : Nat} {v : α} {o : Head}
    (h : s.pc t = .pLinked c i v o) (he : s.hd c.dst = o) : Done s t 1 :=
  done_step (n := 0) (by simp only [step, h, he, and_self, if_true]; rfl) (done_idle (by simp))

theorem done_pLoaded_fresh {s : State α} {t : Nat} {c : Call α} {i : Nat} {v : α} {o : Head}
    (h : s.pc t = .pLoaded c i v o) (he : s.hd c.dst = o) : Done s t 2 :=
  done_step (n := 1) (by simp only [step, h]; rfl) (done_pLinked_fresh (upd_same _ _ _) (by simpa using he))

theorem done_pLinked {s : State α} {t : Nat} {c : Call α} {i : Nat} {v : α} {o : Head}
    (h : s.pc t = .pLinked c i v o) : Done s t 3 := by
  by_cases he : s.hd c.dst = o
  · exact done_mono (done_pLinked_fresh h he) (by omega)
  · exact done_step (n := 2) (by simp only [step, h, he, false_and, if_false]; rfl)
      (done_pLoaded_fresh (upd_same _ _ _) (by simp))

theorem done_pLoaded {s : State α} {t : Nat} {c : Call α} {i : Nat} {v : α} {o : Head}
    (h : s.pc t = .pLoaded c i v o) : Done s t 4 :=
  done_step (n := 3) (by simp only [step, h]; rfl) (done_pLinked (upd_same _ _ _))

theorem done_filled {s : State α} {t : Nat} {c : Call α} {i : Nat} {v : α}
    (h : s.pc t = .filled c i v) : Done s t 3 :=
  done_step (n := 2) (by simp only [step, h]; rfl) (done_pLoaded_fresh (upd_same _ _ _) (by simp))

theorem done_holds {s : State α} {t : Nat} {c : Call α} {i : Nat}
    (h : s.pc t = .holds c i) : Done s t 4 := by
  cases c with
  | push x => exact done_step (n := 3) (by simp only [step, h]; rfl) (done_filled (upd_same _ _ _))
  | pop => exact done_step (n := 3) (by simp only [step, h]; rfl) (done_filled (upd_same _ _ _))

theorem done_linkRead_fresh {s : State α} {t : Nat} {c : Call α} {o : Head} {v n : Nat}
    (h : s.pc t = .linkRead c o v n) (he : s.hd c.src = o) : Done s t 5 :=
  done_step (n := 4) (by simp only [step, h, he, and_self, if_true]; rfl) (done_holds (upd_same _ _ _))

theorem done_loaded_fresh {s : State α} {t : Nat} {c : Call α} {o : Head} {v : Nat}
    (h : s.pc t = .loaded c o v) (he : s.hd c.src = o) : Done s t 6 := by
  by_cases hu : o.idx = UNDEF
  · exact done_step (n := 5) (by simp only [step, h, hu, if_true]; rfl) (done_idle (by simp))
  · exact done_step (n := 5) (by simp only [step, h, hu, if_false]; rfl)
      (done_linkRead_fresh (upd_same _ _ _) (by simpa using he))

theorem done_linkRead {s : State α} {t : Nat} {c : Call α} {o : Head} {v n : Nat}
    (h : s.pc t = .linkRead c o v n) : Done s t 7 := by
  by_cases he : s.hd c.src = o
  · exact done_mono (done_linkRead_fresh h he) (by omega)
  · exact done_step (n := 6) (by simp only [step, h, he, false_and, if_false]; rfl)
      (done_loaded_fresh (upd_same _ _ _) (by simp))

theorem done_any (s : State α) (t : Nat) : Done s t 8 := by
  cases h : s.pc t with
  | idle => exact done_idle h
  | start c =>
    exact done_mono (done_step (n := 6) (by simp only [step, h]; rfl)
      (done_loaded_fresh (upd_same _ _ _) (by simp))) (by omega)
  | loaded c o v =>
    by_cases hu : o.idx = UNDEF
    · exact done_step (n := 7) (by simp only [step, h, hu, if_true]; rfl) (done_idle (by simp))
    · exact done_step (n := 7) (by simp only [step, h, hu, if_false]; rfl)
        (done_linkRead (upd_same _ _ _))
  | linkRead c o v n => exact done_mono (done_linkRead h) (by omega)
  | holds c i => exact done_mono (done_holds h) (by omega)
  | filled c i v => exact done_mono (done_filled h) (by omega)
  | pLoaded c i v o => exact done_mono (done_pLoaded h) (by omega)
  | pLinked c i v o => exact done_mono (done_pLinked h) (by omega)

end Verif.LFS
