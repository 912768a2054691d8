import Verif.Lemmas.ABA
import Verif.Lemmas.LFSSeq

/-! Property theorems C01-C04 (lock-free stack and its use as an object pool by concurrent threads). -/

namespace Verif.LFS

/-- **C01.** Every concurrent execution of the stack, whatever the number of threads, their calls and the
interleaving, shows the observable history of an atomic bounded LIFO stack that starts full with the
`min cap 65535` initial elements, provided no compare-and-swap of `_pop` is overtaken by 65536 updates. -/
theorem C01_stack_linearizable {α : Type} (cap : Nat) (hcap : 1 ≤ cap) (d : Nat → α)
    (sched : Sched α) (s' : State α) (hist : List (Obs α))
    (hw : NoWrap (init cap d) sched) (hr : run (init cap d) sched = some (s', hist)) :
    ∃ a', SpecRun (min cap 65535) (Abs.initial (min cap 65535) d) hist a' := by
  obtain ⟨a', _, _, h, _⟩ := sim_run (by unfold UNDEF; omega) (sim_init cap hcap d) hw hr
  exact ⟨a', h⟩

/-- **C01, sequential reading.** If in an execution no two calls overlap, the results are those of a plain
bounded stack: a push succeeds exactly if there is room, a pop returns the most recent element. -/
theorem C01_sequential_lifo {α : Type} (cap : Nat) (hcap : 1 ≤ cap) (d : Nat → α)
    (sched : Sched α) (s' : State α) (ops : List (Nat × Call α × Res α))
    (hw : NoWrap (init cap d) sched) (hr : run (init cap d) sched = some (s', seqHist ops)) :
    Replay (min cap 65535) ((List.range (min cap 65535)).map d) ops := by
  obtain ⟨a', h⟩ := C01_stack_linearizable cap hcap d sched s' _ hw hr
  exact (replay_of_specRun h).1 ops (fun _ => rfl) rfl

/-- **C01, progress.** From every state (reachable or not) a thread that runs alone finishes its call within
eight steps. -/
theorem C01_obstruction_free {α : Type} (s : State α) (t : Nat) :
    ∃ n, n ≤ 8 ∧ ∃ s' h, run s (List.replicate n (t, .go false)) = some (s', h) ∧ s'.pc t = .idle :=
  done_any s t

/-- non-vacuity: two threads overlap, one compare-and-swap fails, the schedule meets the hypotheses -/
example : ∃ s' hist, run (init 2 id)
    ([(0, .call .pop), (1, .call .pop), (0, .go false), (1, .go false), (0, .go false), (1, .go false),
      (0, .go false), (1, .go false), (1, .go false), (1, .go false)] : Sched Nat) = some (s', hist) ∧
    s'.pc 0 = .holds .pop 0 ∧ s'.pc 1 = .holds .pop 1 ∧ hist = [.inv 0 .pop, .inv 1 .pop] :=
  ⟨_, _, rfl, rfl, rfl, rfl⟩
example : NoWrap (init 2 id)
    ([(0, .call .pop), (1, .call .pop), (0, .go false), (1, .go false), (0, .go false), (1, .go false),
      (0, .go false), (1, .go false)] : Sched Nat) := by
  simp [NoWrap, Fresh, step, init, upd_apply, UNDEF, Call.src, TAGS]

/-- **C02.** A push that reports failure took effect at an instant at which the elements stored plus the
elements in transit in other threads used up the capacity: this is part of the specification used in C01
(`SpecStep.pushFull`).  Its consequence for users: if only elements handed out before are pushed, no push
ever fails, in any interleaving. -/
theorem C02_give_back_never_refused (cap : Nat) (hcap : 1 ≤ cap) (sched : Sched Nat)
    (s' : State Nat) (hist : List (Obs Nat)) (hw : NoWrap (init cap id) sched)
    (hr : run (init cap id) sched = some (s', hist)) (hg : GivesBackOnly [] hist)
    (t : Nat) (c : Call Nat) : (.ret t c (.pushed false)) ∉ hist := by
  obtain ⟨a', h⟩ := C01_stack_linearizable cap hcap id sched s' hist hw hr
  have hE := (pool_run (poolInv_init _) h hg).1
  intro hm
  clear hg h hr hw
  generalize ([] : List Nat) = out at hE
  induction hist generalizing out with
  | nil => simp at hm
  | cons e h ih =>
    obtain ⟨_, h2, h3⟩ := hE
    simp only [List.mem_cons] at hm
    rcases hm with hm | hm
    · exact h2 t c hm.symm
    · exact ih hm _ h3

/-- **C02, capacity.** When all calls have returned, the elements stored (in the cells found by following the
links from the head) and the elements handed out are
together exactly the `min cap 65535` initial ones: none is lost, none duplicated. -/
theorem C02_elements_conserved (cap : Nat) (hcap : 1 ≤ cap) (sched : Sched Nat)
    (s' : State Nat) (hist : List (Obs Nat)) (hw : NoWrap (init cap id) sched)
    (hr : run (init cap id) sched = some (s', hist)) (hg : GivesBackOnly [] hist)
    (hidle : ∀ t, s'.pc t = .idle) :
    ∃ cells : List Nat, Chain s'.nxt (s'.hd .head).idx cells ∧
      (cells.map s'.data ++ hist.foldl outAfter []).Perm (List.range (min cap 65535)) := by
  obtain ⟨a', L, hl, h, hsim⟩ := sim_run (by unfold UNDEF; omega) (sim_init cap hcap id) hw hr
  obtain ⟨_, tl, hI⟩ := pool_run (poolInv_init _) h hg
  refine ⟨L .head, hsim.inv.chain .head, ?_⟩
  have htl : tl = [] := by
    cases tl with
    | nil => rfl
    | cons x r =>
      obtain ⟨t, o⟩ := x
      have := (hI.tr t o).mp (by simp)
      rw [hsim.status, hidle] at this
      simp [PC.status, Status.obj] at this
  have := hI.perm
  rw [htl, hsim.stack] at this
  simpa using this

/-- **C02, oversized stacks (negation of "holds n elements" for n > 65535).** The constructor accepts a
capacity above 65535 but only 65535 elements are ever reachable (16 bit links): in every run of pops one after
the other, the 65536th pop reports "empty" although `cap ≥ 65536` elements were created and none was taken
twice. -/
theorem C02_oversized_capacity_truncated {α : Type} (cap : Nat) (hcap : 65535 < cap) (d : Nat → α)
    (sched : Sched α) (s' : State α) (ops : List (Nat × Call α × Res α))
    (hw : NoWrap (init cap d) sched) (hr : run (init cap d) sched = some (s', seqHist ops))
    (hpop : ∀ x ∈ ops, x.2.1 = .pop) (hlen : 65535 < ops.length) :
    (ops[65535]).2.2 = .popped none := by
  have h := C01_sequential_lifo cap (by omega) d sched s' ops hw hr
  have e : min cap 65535 = 65535 := by omega
  rw [e] at h
  exact replay_pops_empty _ _ ops h hpop 65535 (by simp) hlen

/-- **C03, protected window.** In every execution that respects the window, two threads never hold the same
cell, and no cell that a thread holds is in the stack or in the free list. -/
theorem C03_no_double_handout {α : Type} (cap : Nat) (hcap : 1 ≤ cap) (d : Nat → α)
    (sched : Sched α) (s' : State α) (hist : List (Obs α))
    (hw : NoWrap (init cap d) sched) (hr : run (init cap d) sched = some (s', hist))
    (t u i : Nat) (ht : AccessesData s' t i) (hu : AccessesData s' u i) : t = u := by
  obtain ⟨_, L, hl, _, hsim⟩ := sim_run (by unfold UNDEF; omega) (sim_init cap hcap d) hw hr
  have h1 : (s'.pc t).cell = some i := by
    unfold AccessesData at ht
    split at ht
    · rename_i c j e; rw [e, ← ht]; rfl
    · exact absurd ht id
  have h2 : (s'.pc u).cell = some i := by
    unfold AccessesData at hu
    split at hu
    · rename_i c j e; rw [e, ← hu]; rfl
    · exact absurd hu id
  exact hsim.inv.cell_inj h1 h2

/-- **C03, outside the window (negation witness).** With exactly 65536 updates between the load and the
compare-and-swap of one pop, a pool of three objects hands out the same object to two holders although every
client follows the rules; the history is not one of an atomic stack. -/
theorem C03_aba_wrap_breaks :
    ∃ (sched : Sched Nat) (s' : State Nat) (hist : List (Obs Nat)),
      run (init 3 id) sched = some (s', hist) ∧ GivesBackOnly [] hist ∧ ¬ Exclusive 3 [] hist ∧
      ¬ ∃ a', SpecRun 3 (Abs.initial 3 id) hist a' := by
  obtain ⟨s, h⟩ := ABA.aba_run
  refine ⟨_, s, _, h, ABA.aba_gives, ABA.aba_not_excl, ?_⟩
  rintro ⟨a', ha⟩
  exact ABA.aba_not_excl (pool_run (poolInv_init 3) ha ABA.aba_gives).1

/-- **C04, concurrent.** Clients of a pool of `n` objects (1 ≤ n ≤ 65535) that give back only what they were
handed out: in every interleaving, no object is handed out while some client holds it, only the `n`
objects are handed out, and no give-back is refused (a refused object would be destroyed). -/
theorem C04_one_holder (n : Nat) (hn : 1 ≤ n) (hn' : n ≤ 65535) (sched : Sched Nat)
    (s' : State Nat) (hist : List (Obs Nat)) (hw : NoWrap (init n id) sched)
    (hr : run (init n id) sched = some (s', hist)) (hg : GivesBackOnly [] hist) :
    Exclusive n [] hist := by
  obtain ⟨a', h⟩ := C01_stack_linearizable n hn id sched s' hist hw hr
  have e : min n 65535 = n := by omega
  rw [e] at h
  exact (pool_run (poolInv_init _) h hg).1

/-- non-vacuity of the client rule: take an object, give it back, take again -/
example : ∃ s', run (init 2 id) (ABA.full 0 .pop ++ ABA.full 0 (.push 0) ++ ABA.full 1 .pop) =
      some (s', [.inv 0 .pop, .ret 0 .pop (.popped (some 0)), .inv 0 (.push 0),
        .ret 0 (.push 0) (.pushed true), .inv 1 .pop, .ret 1 .pop (.popped (some 0))]) ∧
    GivesBackOnly [] [.inv 0 .pop, .ret 0 .pop (.popped (some 0)), .inv 0 (.push 0),
        .ret 0 (.push 0) (.pushed true), .inv 1 .pop, .ret 1 .pop (.popped (some 0))] :=
  ⟨_, rfl, by simp [GivesBackOnly, outAfter]⟩

/-- **C54 (negation witness).** The link fields are plain integers accessed without synchronisation: there is
an execution (two threads popping from a stack of two) in which one thread is about to read the link of a
node that the other is about to write.  By the C++ memory model this is a data race, hence undefined
behaviour; the other theorems assume that such a read returns some current value. -/
theorem C54_link_field_data_race :
    ∃ (sched : Sched Nat) (s' : State Nat) (hist : List (Obs Nat)),
      run (init 2 id) sched = some (s', hist) ∧ ReadsLink s' 0 0 ∧ WritesLink s' 1 0 :=
  ⟨[(0, .call .pop), (0, .go false)] ++ (1, .call .pop) :: ABA.go 1 5, _, _, rfl,
    by simp [ReadsLink, init, upd_apply, UNDEF, Call.src],
    by simp [WritesLink, init, upd_apply, Call.src, Call.dst]⟩

/-- **C54, what does hold.** Elements themselves are never accessed by two threads at once, and no two threads
write the same link field at once.
Missing: the link fields, one thread reading while another writes, where it fails (`C54_link_field_data_race`). -/
theorem C54_data_cells_race_free_partial {α : Type} (cap : Nat) (hcap : 1 ≤ cap) (d : Nat → α)
    (sched : Sched α) (s' : State α) (hist : List (Obs α))
    (hw : NoWrap (init cap d) sched) (hr : run (init cap d) sched = some (s', hist))
    (t u i : Nat) (htu : t ≠ u) :
    ¬ (AccessesData s' t i ∧ AccessesData s' u i) ∧ ¬ (WritesLink s' t i ∧ WritesLink s' u i) := by
  refine ⟨fun h => htu (C03_no_double_handout cap hcap d sched s' hist hw hr t u i h.1 h.2), ?_⟩
  rintro ⟨h1, h2⟩
  obtain ⟨_, L, hl, _, hsim⟩ := sim_run (by unfold UNDEF; omega) (sim_init cap hcap d) hw hr
  have key : ∀ v, WritesLink s' v i → (s'.pc v).cell = some i := by
    intro v hv
    unfold WritesLink at hv
    split at hv
    · rename_i c j _ _ e; rw [e, ← hv]; rfl
    · exact absurd hv id
  exact htu (hsim.inv.cell_inj (key t h1) (key u h2))

end Verif.LFS
