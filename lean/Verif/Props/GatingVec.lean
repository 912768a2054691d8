import Verif.Lemmas.GatingVec

/-!
C89: the list of gating sequences.  Registering and removing processors and asking for the minimum, at the level of the accesses to the vector.

The calls are safe if additions and removals do not overlap with other calls (several producers may look at the list at the same time): this is what
the models of the rings (SingleRing, MultiRing, DataMux, EventLoop) assume, where an addition is one step.  Nothing in the library makes sure of it: a subscriber
registers on its own thread while the publisher publishes.
-/

namespace Verif.GVec
open Verif

variable {grow : Nat → Nat}

/-- **C89**, calls that do not overlap: no invalid access, whatever the growth of the vector.  Missing: overlapping calls, where it fails
(`C89_violation_freed`, `C89_violation_first_registration`). -/
theorem C89_no_invalid_access_partial {s : St} (hg : ∀ n, n < grow n) (h : Reach grow Alone s) : s.bad = false := (h.inv hg).good

/-- **C89**, calls that do not overlap: the minimum is taken over exactly the processors registered and not removed so far, each once, in the order of
registration; nothing else is read.  Missing: overlapping calls (`C89_violation_lost_registration`, `C89_violation_removal_hides_another`). -/
theorem C89_minimum_over_registered_partial {s : St} (hg : ∀ n, n < grow n) (h : Reach grow Alone s) {h1 h2 : List Ev} {m0 res : Int} {reads : List (Nat × Int)}
    (he : s.hist = h1 ++ .min m0 reads res :: h2) : reads.map (·.1) = registered h1 ∧ IsMin m0 (reads.map (·.2)) res :=
  (h.inv hg).hist _ _ _ he

/-- **C89**, calls that do not overlap: `remove_gating_sequence` reports whether the processor was registered.  Missing: overlapping calls. -/
theorem C89_remove_reports_partial {s : St} (hg : ∀ n, n < grow n) (h : Reach grow Alone s) {h1 h2 : List Ev} {x : Nat} {r : Bool}
    (he : s.hist = h1 ++ .rem x r :: h2) : r = true ↔ x ∈ registered h1 :=
  (h.inv hg).hist _ _ _ he

/-- **C89**, calls that do not overlap: when the minimum is returned, no registered processor is behind it, although the processors move on during the call.  Missing:
overlapping calls. -/
theorem C89_minimum_is_lower_bound_partial {s s' : St} {t : Nat} (hg : ∀ n, n < grow n) (h : Reach grow Alone s) (hs : step grow s (.tau t) = some s')
    {m0 res : Int} {reads : List (Nat × Int)} (he : s'.hist = s.hist ++ [.min m0 reads res]) : ∀ c ∈ registered s.hist, res ≤ s'.seq c := by
  have hi := h.inv hg
  have hne : ∀ {e : Ev}, s.hist ++ [e] = s.hist ++ [.min m0 reads res] → e = .min m0 reads res := fun h => by simpa using h
  have hself : ¬ s.hist = s.hist ++ [.min m0 reads res] := by simp
  have hwr : ∀ b i c, (wr s b i c).hist = s.hist := by intro b i c; unfold wr; split <;> rfl
  cases hq : s.pc t with
  | minCell m0' m b i e rs =>
    simp only [step, tau, hq] at hs
    split at hs
    · next hbe =>
      cases hs
      have := hne he
      cases this
      rcases hi.calls with ⟨u, h1, h2, _⟩ | ⟨_, hv, hr⟩
      · by_cases e : t = u
        · subst e; rw [hq] at h1; cases h1
        · rw [h2 t e] at hq; cases hq
      · have hrt := hr t
        rw [hq] at hrt
        obtain ⟨_, h2, _, h4⟩ := hrt
        have hil : i = (registered s.hist).length := by rw [h2, hv.fin] at hbe; cases hbe; rfl
        intro c hc
        have hids := h4.ids
        rw [hil, List.take_length] at hids
        rw [← hids] at hc
        obtain ⟨p, hp, rfl⟩ := List.mem_map.mp hc
        exact Int.le_trans (h4.min.2.2 p.2 (List.mem_map.mpr ⟨p, hp, rfl⟩)) (h4.low p hp)
    · split at hs <;> cases hs <;> exact absurd he hself
  | idle => simp [step, tau, hq] at hs
  | addInc => simp only [step, tau, hq, Option.some.injEq] at hs; subst hs; cases hne he
  | addS3 => simp only [step, tau, hq, Option.some.injEq] at hs; subst hs; cases hne he
  | remEnd =>
    simp only [step, tau, hq] at hs
    split at hs <;> cases hs
    · cases hne he
    · exact absurd he hself
  | addCell => simp only [step, tau, hq, Option.some.injEq] at hs; subst hs; exact absurd ((hwr ..).symm.trans he) hself
  | addCopy =>
    simp only [step, tau, hq] at hs
    split at hs
    · cases hs; exact absurd he hself
    · split at hs <;> cases hs
      · exact absurd ((hwr ..).symm.trans he) hself
      · exact absurd he hself
  | remMove =>
    simp only [step, tau, hq] at hs
    split at hs
    · cases hs; exact absurd he hself
    · split at hs <;> cases hs
      · exact absurd ((hwr ..).symm.trans he) hself
      · exact absurd he hself
  | addAlloc => simp only [step, tau, hq] at hs; split at hs <;> cases hs <;> exact absurd he hself
  | addFree => simp only [step, tau, hq] at hs; (repeat' split at hs) <;> cases hs <;> exact absurd he hself
  | remCell => simp only [step, tau, hq] at hs; split at hs <;> cases hs <;> exact absurd he hself
  | _ => simp only [step, tau, hq, Option.some.injEq] at hs; subst hs; exact absurd he hself

/-- **C89**, calls that do not overlap: no data race on the vector.  Missing: overlapping calls (`C89_violation_race`). -/
theorem C89_no_race_partial {s : St} (hg : ∀ n, n < grow n) (h : Reach grow Alone s) : ¬ Race s := by
  rintro ⟨t, u, l, htu, hw, ha⟩
  have hwr : (s.pc t).writer = true := by
    cases hp : s.pc t <;> rw [hp] at hw <;> first | rfl | (cases l <;> exact absurd hw (fun h => h))
  rcases (h.inv hg).calls with ⟨v, h1, h2, _⟩ | ⟨h1, _, _⟩
  · have htv : t = v := Classical.byContradiction fun e => by rw [h2 t e] at hwr; cases hwr
    have hu : s.pc u = .idle := h2 u (fun e => htu (htv.trans e.symm))
    rw [hu] at ha
    rcases ha with ha | ha <;> cases l <;> exact ha
  · rw [h1 t] at hwr; cases hwr

/-! ### Overlapping calls -/

theorem run_append {as bs : List Act} : ∀ {s s' : St}, run grow s as = some s' → run grow s (as ++ bs) = run grow s' bs := by
  induction as with
  | nil => intro s s' h; simp only [run, Option.some.injEq] at h; subst h; rfl
  | cons a as ih =>
    intro s s' h
    simp only [run] at h
    split at h
    · cases h
    · rename_i s1 hs
      simp only [List.cons_append, run, hs]
      exact ih h

/-- The copy loop of a reallocation. -/
theorem copy_all {L : List Nat} {c u nb : Nat} {f : Nat × Nat} : ∀ (d j : Nat) (s : St), WInv s L (.addCopy c f j nb) → s.pc u = .addCopy c f j nb → j + d = f.2 →
    ∃ s', run grow s (List.replicate d (.tau u)) = some s' ∧ WInv s' L (.addCopy c f f.2 nb) ∧ s'.pc u = .addCopy c f f.2 nb ∧ s'.start = s.start ∧
      ∀ v, v ≠ u → s'.pc v = s.pc v
  | 0, j, s, hw, hp, hj => ⟨s, rfl, by rw [← hj]; exact hw, by rw [← hj]; exact hp, rfl, fun _ _ => rfl⟩
  | d + 1, j, s, hw, hp, hj => by
    have hw0 := hw
    obtain ⟨h1, h2, h3, h4, h5, h6, h7, h8, h9⟩ := hw
    have e2 : f.2 = L.length := by rw [h2, h1.fin]
    have e1 : f.1 = s.start := by rw [h2, h1.fin]
    have hjl : j < L.length := by omega
    have hr : rd s f.1 j = some L[j] := by
      rw [e1, rd_ok h1.alive (Nat.lt_of_lt_of_le hjl h1.le), h1.cells j hjl]; simp
    have hst : step grow s (.tau u) = some (goto (wr s nb j L[j]) u (.addCopy c f (j + 1) nb)) := by
      simp only [step, tau, hp]; rw [if_neg (by omega), hr]
    rw [wr_ok h5 (by omega)] at hst
    have eh : ∀ B, upd s.heap nb B s.start = s.heap s.start := fun B => upd_other _ _ h3.symm
    obtain ⟨s', g1, g2, g3, g4, g5⟩ := copy_all d (j + 1)
      (goto { s with heap := upd s.heap nb { s.heap nb with cell := upd (s.heap nb).cell j (some L[j]) } } u (.addCopy c f (j + 1) nb)) (by
        refine ⟨⟨h1.fin, ?_, ?_, ?_, ?_, h1.fresh⟩, h2, h3, h4, ?_, ?_, ?_, hjl, fun i hi => ?_⟩
        · simp only [goto, eh]; exact h1.eos
        · simp only [goto, eh]; exact h1.le
        · simp only [goto, eh]; exact h1.alive
        · simp only [goto, eh]; exact h1.cells
        · simp [goto, h5]
        · simp [goto, h6]
        · simp [goto, Nat.ne_of_gt hjl, h7]
        · by_cases e : i = j
          · subst e; simp [goto]
          · simp only [goto, upd_same, upd_other _ _ e]; exact h9 i (by omega)) (upd_same s.pc u _) (by omega)
    refine ⟨s', ?_, g2, g3, g4, fun v hv => by rw [g5 v hv]; exact upd_other _ _ hv⟩
    simp only [List.replicate_succ, run, hst]
    exact g1

/-- **C89 violation**, in general: a producer that is in the middle of `get_minimum_sequence` on a full vector reads freed memory if another thread registers a
processor meanwhile.  From every state reached without an overlap, for every growth, every number of processors and every point of the scan.  (A new
subscriber of a data multiplexer registers on its own thread while the publisher publishes; so does an event loop that is started again.) -/
theorem C89_violation_freed {s : St} {t u c i : Nat} {m0 m : Int} {b : Nat} {e : Nat × Nat} {reads : List (Nat × Int)} (hg : ∀ n, n < grow n)
    (h : Reach grow Alone s) (ht : s.pc t = .minCell m0 m b i e reads) (hm : (b, i) ≠ e) (hu : s.pc u = .idle)
    (hfull : s.fin = s.eos) (h0 : s.start ≠ 0) :
    ∃ k s', run grow s (.callAdd u c :: List.replicate k (.tau u) ++ [.tau t]) = some s' ∧ s'.bad = true := by
  have hi := h.inv hg
  have htu : t ≠ u := fun e => by rw [e, hu] at ht; cases ht
  obtain ⟨hv, hr⟩ : Holds s (registered s.hist) ∧ RInv s (registered s.hist) (s.pc t) := by
    rcases hi.calls with ⟨w, h1, h2, _⟩ | ⟨_, hv, hr⟩
    · by_cases e : t = w
      · subst e; rw [ht] at h1; cases h1
      · rw [h2 t e] at ht; cases ht
    · exact ⟨hv, hr t⟩
  rw [ht] at hr
  obtain ⟨hb, he, _, _⟩ := hr
  generalize registered s.hist = L at hv
  -- the registration up to the copy loop
  let s1 := goto { s with
    seq := upd s.seq c s.cursor
    heap := upd s.heap s.fresh ⟨true, grow s.fin.2, upd (fun _ => none) s.fin.2 (some c)⟩
    fresh := s.fresh + 1 } u (.addCopy c s.fin 0 s.fresh)
  have hup : ∀ (p q : Pc), upd (upd s.pc u p) u q = upd s.pc u q := by
    intro p q; funext x; by_cases e : x = u <;> simp [e]
  have hrun1 : run grow s (.callAdd u c :: List.replicate 5 (.tau u)) = some s1 := by
    have hst : s.start = s.fin.1 := by rw [hv.fin]
    simp [List.replicate, run, step, tau, hu, goto, upd_same, hfull.symm, hup, s1, hst]
  have hne : s.start ≠ s.fresh := Nat.ne_of_lt hv.fresh
  have eh : ∀ B, upd s.heap s.fresh B s.start = s.heap s.start := fun B => upd_other _ _ hne
  have hfl : s.fin.2 = L.length := by rw [hv.fin]
  have hw1 : WInv s1 L (.addCopy c s.fin 0 s.fresh) := by
    refine ⟨⟨hv.fin, ?_, ?_, ?_, ?_, ?_⟩, rfl, ?_, ?_, ?_, ?_, ?_, Nat.zero_le _, fun i hi => absurd hi (Nat.not_lt_zero _)⟩
    · simp only [s1, goto, eh]; exact hv.eos
    · simp only [s1, goto, eh]; exact hv.le
    · simp only [s1, goto, eh]; exact hv.alive
    · simp only [s1, goto, eh]; exact hv.cells
    · exact Nat.lt_succ_of_lt hv.fresh
    · exact hne.symm
    · exact Nat.lt_succ_self _
    · simp [s1, goto]
    · simp [s1, goto, hfl, hg]
    · simp [s1, goto, hfl]
  obtain ⟨s2, g1, g2, g3, g4, g5⟩ := copy_all (grow := grow) (u := u) s.fin.2 0 s1 hw1 (upd_same s.pc u _) (Nat.zero_add _)
  -- the end of the copy loop, the old buffer is freed
  obtain ⟨a1, a2, _⟩ := g2
  have hs2 : s2.start = s.start := g4
  have e1 : s.fin.1 = s.start := by rw [hv.fin]
  let s3 := goto { s2 with heap := upd s2.heap s.start { s2.heap s.start with alive := false } } u (.addS1 c s.fin s.fresh)
  have hup2 : ∀ (p q : Pc), upd (upd s2.pc u p) u q = upd s2.pc u q := by
    intro p q; funext x; by_cases e : x = u <;> simp [e]
  have hrun2 : run grow s2 [.tau u, .tau u] = some s3 := by
    have ha : (s2.heap s.start).alive = true := by rw [← hs2]; exact a1.alive
    simp [run, step, tau, g3, goto, upd_same, e1, h0, ha, hup2, s3]
  have hpt : s3.pc t = .minCell m0 m b i e reads := by
    have : s3.pc t = s2.pc t := upd_other _ _ htu
    rw [this, g5 t htu]
    exact (upd_other _ _ htu).trans ht
  have hrd : rd s3 b i = none := by
    unfold rd
    rw [if_neg]
    rw [hb]
    simp [s3, goto]
  have hrun3 : run grow s3 [.tau t] = some (invalid s3 t) := by
    simp [run, step, tau, hpt, hm, hrd]
  refine ⟨5 + s.fin.2 + 2, invalid s3 t, ?_, rfl⟩
  have : (.callAdd u c :: List.replicate (5 + s.fin.2 + 2) (.tau u) ++ [.tau t] : List Act) =
      (.callAdd u c :: List.replicate 5 (.tau u)) ++ (List.replicate s.fin.2 (.tau u) ++ ([.tau u, .tau u] ++ [.tau t])) := by
    rw [← List.replicate_append_replicate, ← List.replicate_append_replicate]; simp
  rw [this, run_append hrun1, run_append g1, run_append hrun2, hrun3]

/-- Reachable without any restriction on the calls. -/
theorem reach_run {as : List Act} {s s' : St} (h : Reach grow (fun _ _ => True) s) (hr : run grow s as = some s') : Reach grow (fun _ _ => True) s' := by
  induction as generalizing s with
  | nil => cases hr; exact h
  | cons a as ih =>
    simp only [run] at hr
    split at hr
    · cases hr
    · next hs => exact ih (h.step trivial hs) hr

/-- **C89 violation**: a producer has loaded the begin of the empty vector; the first processor registers; the producer loads the end, and reads memory that
belongs to nothing. -/
theorem C89_violation_first_registration : ∃ s, Reach stdGrow (fun _ _ => True) s ∧ s.bad = true ∧ s.hist = [.add 7] := by
  have hx : (run stdGrow St.init ([.callMin 0 5, .tau 0, .callAdd 1 7] ++ List.replicate 10 (.tau 1) ++ [.tau 0, .tau 0])).map (fun s => (s.bad, s.hist)) =
      some (true, [.add 7]) := by decide +kernel
  obtain ⟨s, hs, he⟩ := Option.map_eq_some_iff.mp hx
  simp only [Prod.mk.injEq] at he
  exact ⟨s, reach_run .init hs, he.1, he.2⟩

/-- **C89 violation**: two subscribers register at the same time.  Both calls return, no invalid access is made, and one of the processors is not in the list: the
producer does not wait for it. -/
theorem C89_violation_lost_registration : ∃ s, Reach stdGrow (fun _ _ => True) s ∧ s.bad = false ∧
    s.hist = [.add 1, .add 2, .min 5 [(2, -1)] (-1)] ∧ registered [.add 1, .add 2] = [1, 2] := by
  have hx : (run stdGrow St.init ([.callAdd 1 1, .callAdd 2 2] ++ List.replicate 6 (.tau 1) ++ List.replicate 6 (.tau 2) ++ List.replicate 4 (.tau 1) ++
      List.replicate 4 (.tau 2) ++ [.callMin 0 5] ++ List.replicate 5 (.tau 0))).map (fun s => (s.bad, s.hist)) =
      some (false, [.add 1, .add 2, .min 5 [(2, -1)] (-1)]) := by decide +kernel
  obtain ⟨s, hs, he⟩ := Option.map_eq_some_iff.mp hx
  simp only [Prod.mk.injEq] at he
  exact ⟨s, reach_run .init hs, he.1, he.2, by decide +kernel⟩

/-- **C89 violation**: a producer has read the first processor of three, which is then removed: the producer does not look at the second. -/
theorem C89_violation_removal_hides_another : ∃ s, Reach stdGrow (fun _ _ => True) s ∧ s.bad = false ∧
    s.hist = [.add 1, .add 2, .add 3, .rem 1 true, .min 5 [(1, -1), (3, -1), (3, -1)] (-1)] := by
  have hx : (run stdGrow St.init ([.callAdd 1 1] ++ List.replicate 10 (.tau 1) ++ [.callAdd 1 2] ++ List.replicate 11 (.tau 1) ++ [.callAdd 1 3] ++ List.replicate 12 (.tau 1) ++
      [.callMin 0 5] ++ List.replicate 4 (.tau 0) ++ [.callRem 1 1] ++ List.replicate 12 (.tau 1) ++ List.replicate 5 (.tau 0))).map (fun s => (s.bad, s.hist)) =
      some (false, [.add 1, .add 2, .add 3, .rem 1 true, .min 5 [(1, -1), (3, -1), (3, -1)] (-1)]) := by decide +kernel
  obtain ⟨s, hs, he⟩ := Option.map_eq_some_iff.mp hx
  simp only [Prod.mk.injEq] at he
  exact ⟨s, reach_run .init hs, he.1, he.2⟩

/-- **C89 violation**: a registration during a claim is a data race. -/
theorem C89_violation_race : ∃ s, Reach stdGrow (fun _ _ => True) s ∧ Race s := by
  have hx : (run stdGrow St.init ([.callMin 0 5, .tau 0, .callAdd 1 7] ++ List.replicate 8 (.tau 1))).map (fun s => (s.pc 0, s.pc 1)) =
      some (.minEnd 5 0, .addS2 7 (0, 0) 1) := by decide +kernel
  obtain ⟨s, hs, he⟩ := Option.map_eq_some_iff.mp hx
  simp only [Prod.mk.injEq] at he
  exact ⟨s, reach_run .init hs, 1, 0, .fin, by decide, by rw [he.2]; trivial, .inl (by rw [he.1]; trivial)⟩

/-! ### Concrete cases -/

theorem tau_others {s s' : St} {t : Nat} (hs : step grow s (.tau t) = some s') : ∀ v, v ≠ t → s'.pc v = s.pc v := by
  intro v hv
  have hwr : ∀ b i c, (wr s b i c).pc = s.pc := by intro b i c; unfold wr; split <;> rfl
  have hu : ∀ (f : Nat → Pc) p, upd f t p v = f v := fun f p => upd_other _ _ hv
  simp only [step, tau] at hs
  (repeat' split at hs) <;> cases hs <;> simp only [goto, ret, invalid, hu, hwr]

/-- A thread in a call is moved by its own accesses only. -/
theorem run_others {t : Nat} : ∀ {as : List Act} {s s' : St}, s.pc t ≠ .idle → (∀ a ∈ as, a ≠ .tau t) → run grow s as = some s' → s'.pc t = s.pc t := by
  intro as
  induction as with
  | nil => intro s s' _ _ h; cases h; rfl
  | cons a as ih =>
    intro s s' hp ha hr
    simp only [run] at hr
    split at hr
    · cases hr
    · next s1 hs =>
      have h1 : s1.pc t = s.pc t := by
        cases a with
        | tau u => exact tau_others hs t (fun e => ha _ (List.mem_cons_self ..) (by rw [e]))
        | advance v => simp only [step] at hs; split at hs <;> cases hs; rfl
        | progress c v => simp only [step] at hs; split at hs <;> cases hs; rfl
        | callAdd u _ | callMin u _ | callRem u _ =>
          simp only [step] at hs
          split at hs
          · next hu =>
            cases hs
            exact upd_other _ _ (fun e => hp (by rw [e]; exact hu))
          · cases hs
      exact (ih (by rw [h1]; exact hp) (fun b hb => ha b (List.mem_cons_of_mem _ hb)) hr).trans h1

/-- **C89**: a registration puts the processor at the value the cursor had when the call looked at it, before the processor is in the list; whatever
else happens meanwhile. -/
theorem C89_starts_at_cursor {s0 s1 s2 s3 : St} {t c : Nat} {as : List Act} (h0 : s0.pc t = .addLoad c) (h1 : step grow s0 (.tau t) = some s1)
    (ha : ∀ a ∈ as, a ≠ .tau t) (h2 : run grow s1 as = some s2) (h3 : step grow s2 (.tau t) = some s3) : s3.seq c = s0.cursor ∧ s3.pc t = .addFin c := by
  simp only [step, tau, h0, Option.some.injEq] at h1
  have e1 : s1.pc t = .addSet c s0.cursor := by rw [← h1]; exact upd_same ..
  have e2 : s2.pc t = .addSet c s0.cursor := (run_others (by rw [e1]; nofun) ha h2).trans e1
  simp only [step, tau, e2, Option.some.injEq] at h3
  subst h3
  exact ⟨upd_same .., upd_same ..⟩

/-- Checks on the way that the calls of threads `0 .. N-1` do not overlap. -/
def aloneB (N : Nat) (s : St) : Act → Bool
  | .callAdd t _ | .callRem t _ => decide (t < N) && (List.range N).all fun u => s.pc u = .idle
  | .callMin t _ => decide (t < N) && (List.range N).all fun u => !(s.pc u).writer
  | _ => true

def runAlone (grow : Nat → Nat) (N : Nat) (s : St) : List Act → Option St
  | [] => some s
  | a :: as => if aloneB N s a then match step grow s a with
    | none => none
    | some s' => runAlone grow N s' as
    else none

theorem reach_alone {N : Nat} {as : List Act} {s s' : St} (h : Reach grow Alone s) (hid : ∀ u, N ≤ u → s.pc u = .idle) (hr : runAlone grow N s as = some s') :
    Reach grow Alone s' := by
  induction as generalizing s with
  | nil => cases hr; exact h
  | cons a as ih =>
    simp only [runAlone] at hr
    split at hr
    · next ha =>
      split at hr
      · cases hr
      · next s1 hs =>
        have hgo : ∀ {s0 : St} {t : Nat} {p : Pc}, s0.pc = s.pc → t < N → ∀ u, N ≤ u → (goto s0 t p).pc u = .idle := by
          intro s0 t p h0 ht u hu
          have : (goto s0 t p).pc u = s0.pc u := upd_other _ _ (by omega)
          rw [this, h0]; exact hid u hu
        refine ih (h.step ?_ hs) ?_ hr
        · cases a with
          | callAdd t c =>
            simp only [aloneB, Bool.and_eq_true, List.all_eq_true, List.mem_range, decide_eq_true_eq] at ha
            intro u
            by_cases e : u < N
            · exact ha.2 u e
            · exact hid u (by omega)
          | callRem t c =>
            simp only [aloneB, Bool.and_eq_true, List.all_eq_true, List.mem_range, decide_eq_true_eq] at ha
            intro u
            by_cases e : u < N
            · exact ha.2 u e
            · exact hid u (by omega)
          | callMin t c =>
            simp only [aloneB, Bool.and_eq_true, List.all_eq_true, List.mem_range, decide_eq_true_eq, Bool.not_eq_true'] at ha
            intro u
            by_cases e : u < N
            · exact ha.2 u e
            · rw [hid u (by omega)]; rfl
          | _ => trivial
        · intro u hu
          have key : ∀ t, s.pc t ≠ .idle → (∀ v, v ≠ t → s1.pc v = s.pc v) → s1.pc u = .idle := by
            intro t ht hv
            have htu : u ≠ t := fun e => ht (by rw [← e]; exact hid u hu)
            rw [hv u htu]; exact hid u hu
          cases a with
          | callAdd t c =>
            simp only [aloneB, Bool.and_eq_true, decide_eq_true_eq] at ha
            simp only [step] at hs
            split at hs <;> cases hs
            exact hgo rfl ha.1 u hu
          | callRem t c =>
            simp only [aloneB, Bool.and_eq_true, decide_eq_true_eq] at ha
            simp only [step] at hs
            split at hs <;> cases hs
            exact hgo rfl ha.1 u hu
          | callMin t c =>
            simp only [aloneB, Bool.and_eq_true, decide_eq_true_eq] at ha
            simp only [step] at hs
            split at hs <;> cases hs
            exact hgo rfl ha.1 u hu
          | tau t =>
            refine key t ?_ (tau_others hs)
            intro e
            simp [step, tau, e] at hs
          | advance v => simp only [step] at hs; split at hs <;> cases hs; exact hid u hu
          | progress c v => simp only [step] at hs; split at hs <;> cases hs; exact hid u hu
    · cases hr

/-- Two processors are registered, two producers ask for the minimum at the same time while a processor moves, one processor is removed, one added. -/
def exSched : List Act :=
  [.callAdd 1 7] ++ List.replicate 10 (.tau 1) ++ [.callAdd 1 8] ++ List.replicate 11 (.tau 1) ++ [.callMin 0 5, .callMin 2 9, .tau 0, .tau 2, .progress 7 3] ++
  List.replicate 6 (.tau 0) ++ List.replicate 6 (.tau 2) ++ [.callRem 1 7] ++ List.replicate 9 (.tau 1) ++ [.advance 4, .callAdd 2 9] ++ List.replicate 6 (.tau 2) ++
  [.callMin 0 5] ++ List.replicate 7 (.tau 0)

theorem C89_example : ∃ s, Reach stdGrow Alone s ∧ s.hist =
    [.add 7, .add 8, .min 5 [(7, 3), (8, -1)] (-1), .min 9 [(7, 3), (8, -1)] (-1), .rem 7 true, .add 9, .min 5 [(8, -1), (9, 4)] (-1)] := by
  have hx : (runAlone stdGrow 3 St.init exSched).map (fun s => s.hist) =
      some [.add 7, .add 8, .min 5 [(7, 3), (8, -1)] (-1), .min 9 [(7, 3), (8, -1)] (-1), .rem 7 true, .add 9, .min 5 [(8, -1), (9, 4)] (-1)] := by decide +kernel
  obtain ⟨s, hs, he⟩ := Option.map_eq_some_iff.mp hx
  exact ⟨s, reach_alone .init (fun _ _ => rfl) hs, he⟩

/-- The hypotheses of `C89_violation_freed` are met after two registrations, in the middle of a claim. -/
example : ∃ s, Reach stdGrow Alone s ∧ s.pc 0 = .minCell 5 (-1) 2 1 (2, 2) [(7, -1)] ∧ (2, 1) ≠ (2, 2) ∧ s.pc 1 = .idle ∧ s.fin = s.eos ∧ s.start ≠ 0 := by
  have hx : (runAlone stdGrow 2 St.init ([.callAdd 1 7] ++ List.replicate 10 (.tau 1) ++ [.callAdd 1 8] ++ List.replicate 11 (.tau 1) ++ [.callMin 0 5] ++
      List.replicate 4 (.tau 0))).map (fun s => (s.pc 0, s.pc 1, s.fin, s.eos, s.start)) =
      some (.minCell 5 (-1) 2 1 (2, 2) [(7, -1)], .idle, (2, 2), (2, 2), 2) := by decide +kernel
  obtain ⟨s, hs, he⟩ := Option.map_eq_some_iff.mp hx
  simp only [Prod.mk.injEq] at he
  obtain ⟨e1, e2, e3, e4, e5⟩ := he
  exact ⟨s, reach_alone .init (fun _ _ => rfl) hs, e1, by decide, e2, by rw [e3, e4], by rw [e5]; decide⟩

end Verif.GVec
