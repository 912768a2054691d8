import Verif.Spec.GatingVec
import Mathlib.Tactic.Tauto

/-! Lemmas for C89: the vector of gating sequences when calls do not overlap. -/

namespace Verif.GVec
open Verif

/-- The vector holds the list `L`. -/
structure Holds (s : St) (L : List Nat) : Prop where
  fin : s.fin = (s.start, L.length)
  eos : s.eos = (s.start, (s.heap s.start).size)
  le : L.length ≤ (s.heap s.start).size
  alive : (s.heap s.start).alive = true
  cells : ∀ i, i < L.length → (s.heap s.start).cell i = L[i]?
  fresh : s.start < s.fresh

/-- The new block `nb` holds `L` and `c`. -/
structure NewOk (s : St) (L : List Nat) (c nb : Nat) : Prop where
  fresh : nb < s.fresh
  alive : (s.heap nb).alive = true
  lt : L.length < (s.heap nb).size
  cells : ∀ i, i < L.length → (s.heap nb).cell i = L[i]?
  last : (s.heap nb).cell L.length = some c

/-- What is left to remove. -/
structure Rest (L C : List Nat) (x i : Nat) (r : Bool) : Prop where
  le : i ≤ C.length
  before : x ∉ C.take i
  same : C.filter (· ≠ x) = L.filter (· ≠ x)
  mem : x ∈ L ↔ r = true ∨ x ∈ C

/-- `erase` has moved the elements from `i` up to `j`. -/
structure Moving (s : St) (L C : List Nat) (x i j : Nat) : Prop where
  fin : s.fin = (s.start, C.length)
  eos : s.eos = (s.start, (s.heap s.start).size)
  le : C.length ≤ (s.heap s.start).size
  alive : (s.heap s.start).alive = true
  cells : ∀ q, q < C.length → (s.heap s.start).cell q = if i ≤ q ∧ q < j then C[q + 1]? else C[q]?
  fresh : s.start < s.fresh
  ij : i ≤ j
  jlt : j < C.length
  at_ : C[i]? = some x
  before : x ∉ C.take i
  same : C.filter (· ≠ x) = L.filter (· ≠ x)
  mem : x ∈ L

/-- A thread that adds or removes, alone. -/
def WInv (s : St) (L : List Nat) : Pc → Prop
  | .addLoad _ | .addSet _ _ | .addFin _ | .remBegin _ => Holds s L
  | .addEos _ f | .addAlloc _ f => Holds s L ∧ f = s.fin
  | .addCell _ f => Holds s L ∧ f = s.fin ∧ L.length < (s.heap s.start).size
  | .addInc c f => Holds s L ∧ f = s.fin ∧ L.length < (s.heap s.start).size ∧ (s.heap s.start).cell L.length = some c
  | .addCopy c f j nb => Holds s L ∧ f = s.fin ∧ nb ≠ s.start ∧ nb < s.fresh ∧ (s.heap nb).alive = true ∧ L.length < (s.heap nb).size ∧
      (s.heap nb).cell L.length = some c ∧ j ≤ L.length ∧ ∀ i, i < j → (s.heap nb).cell i = L[i]?
  | .addFree c f nb => Holds s L ∧ f = s.fin ∧ nb ≠ s.start ∧ NewOk s L c nb
  | .addS1 c f nb => f.2 = L.length ∧ NewOk s L c nb
  | .addS2 c f nb => f.2 = L.length ∧ NewOk s L c nb ∧ s.start = nb
  | .addS3 c nb => NewOk s L c nb ∧ s.start = nb ∧ s.fin = (nb, L.length + 1)
  | .remEnd x b i r => b = s.start ∧ ∃ C, Holds s C ∧ Rest L C x i r
  | .remCell x b i f r => b = s.start ∧ f = s.fin ∧ ∃ C, Holds s C ∧ Rest L C x i r ∧ i < C.length
  | .remMove x b i j f => b = s.start ∧ f = s.fin ∧ ∃ C, Moving s L C x i j
  | .remStore x b i f => b = s.start ∧ f = s.fin ∧ ∃ C, Moving s L C x i (C.length - 1)
  | _ => False

/-- A scan so far. -/
structure Scan (s : St) (L : List Nat) (m0 m : Int) (i : Nat) (reads : List (Nat × Int)) : Prop where
  ids : reads.map (·.1) = L.take i
  min : IsMin m0 (reads.map (·.2)) m
  low : ∀ p ∈ reads, p.2 ≤ s.seq p.1

/-- A thread that asks for the minimum. -/
def RInv (s : St) (L : List Nat) : Pc → Prop
  | .minEnd _ b => b = s.start
  | .minCell m0 m b i e reads => b = s.start ∧ e = s.fin ∧ i ≤ L.length ∧ Scan s L m0 m i reads
  | .minSeq m0 m c b i e reads => b = s.start ∧ e = s.fin ∧ L[i]? = some c ∧ Scan s L m0 m i reads
  | _ => True

/-- What a call has returned, after the calls `h`. -/
def EvOk (h : List Ev) : Ev → Prop
  | .min m0 reads res => reads.map (·.1) = registered h ∧ IsMin m0 (reads.map (·.2)) res
  | .rem x r => r = true ↔ x ∈ registered h
  | .add _ => True

structure Inv (s : St) : Prop where
  good : s.bad = false
  calls : (∃ t, (s.pc t).writer = true ∧ (∀ u, u ≠ t → s.pc u = .idle) ∧ WInv s (registered s.hist) (s.pc t)) ∨
    ((∀ u, (s.pc u).writer = false) ∧ Holds s (registered s.hist) ∧ ∀ u, RInv s (registered s.hist) (s.pc u))
  hist : ∀ h1 e h2, s.hist = h1 ++ e :: h2 → EvOk h1 e

theorem registered_append (h : List Ev) (e : Ev) : registered (h ++ [e]) = (match e with
    | .add c => registered h ++ [c]
    | .rem x _ => (registered h).filter (· ≠ x)
    | .min .. => registered h) := by
  cases e <;> simp only [registered, List.foldl_append, List.foldl_cons, List.foldl_nil]

theorem hist_append {h : List Ev} {e : Ev} (hh : ∀ h1 e' h2, h = h1 ++ e' :: h2 → EvOk h1 e') (he : EvOk h e) :
    ∀ h1 e' h2, h ++ [e] = h1 ++ e' :: h2 → EvOk h1 e' := by
  intro h1 e' h2 hx
  rcases List.eq_nil_or_concat h2 with rfl | ⟨h3, y, rfl⟩
  · obtain ⟨rfl, h4⟩ := List.append_inj' hx rfl
    cases h4
    exact he
  · have : h ++ [e] = (h1 ++ e' :: h3) ++ [y] := by rw [hx]; simp
    obtain ⟨h4, _⟩ := List.append_inj' this rfl
    exact hh h1 e' h3 h4

theorem Inv.init : Inv St.init := by
  refine ⟨rfl, .inr ⟨fun _ => rfl, ⟨rfl, rfl, Nat.le_refl _, rfl, nofun, Nat.zero_lt_one⟩, fun _ => trivial⟩, ?_⟩
  intro h1 e h2 h
  cases h1 <;> cases h

theorem Holds.congr {s s' : St} {L : List Nat} (h : Holds s L) (h1 : s'.start = s.start) (h2 : s'.fin = s.fin) (h3 : s'.eos = s.eos) (h4 : s'.heap = s.heap)
    (h5 : s'.fresh = s.fresh) : Holds s' L :=
  ⟨by rw [h1, h2]; exact h.fin, by rw [h1, h3, h4]; exact h.eos, by rw [h1, h4]; exact h.le, by rw [h1, h4]; exact h.alive, by rw [h1, h4]; exact h.cells,
    by rw [h1, h5]; exact h.fresh⟩

theorem NewOk.congr {s s' : St} {L : List Nat} {c nb : Nat} (h : NewOk s L c nb) (h4 : s'.heap = s.heap)
    (h5 : s'.fresh = s.fresh) : NewOk s' L c nb :=
  ⟨by rw [h5]; exact h.fresh, by rw [h4]; exact h.alive, by rw [h4]; exact h.lt, by rw [h4]; exact h.cells, by rw [h4]; exact h.last⟩

theorem Moving.congr {s s' : St} {L C : List Nat} {x i j : Nat} (h : Moving s L C x i j) (h1 : s'.start = s.start) (h2 : s'.fin = s.fin) (h3 : s'.eos = s.eos) (h4 : s'.heap = s.heap)
    (h5 : s'.fresh = s.fresh) : Moving s' L C x i j :=
  ⟨by rw [h1, h2]; exact h.fin, by rw [h1, h3, h4]; exact h.eos, by rw [h1, h4]; exact h.le, by rw [h1, h4]; exact h.alive, by rw [h1, h4]; exact h.cells,
    by rw [h1, h5]; exact h.fresh, h.ij, h.jlt, h.at_, h.before, h.same, h.mem⟩

theorem WInv.congr {s s' : St} {L : List Nat} {pc : Pc} (h : WInv s L pc) (h1 : s'.start = s.start) (h2 : s'.fin = s.fin) (h3 : s'.eos = s.eos) (h4 : s'.heap = s.heap)
    (h5 : s'.fresh = s.fresh) : WInv s' L pc := by
  cases pc <;> simp only [WInv] at h ⊢
  case addLoad | addSet | addFin | remBegin => exact h.congr h1 h2 h3 h4 h5
  case addEos | addAlloc => exact ⟨h.1.congr h1 h2 h3 h4 h5, by rw [h2]; exact h.2⟩
  case addCell => exact ⟨h.1.congr h1 h2 h3 h4 h5, by rw [h2]; exact h.2.1, by rw [h1, h4]; exact h.2.2⟩
  case addInc => exact ⟨h.1.congr h1 h2 h3 h4 h5, by rw [h2]; exact h.2.1, by rw [h1, h4]; exact h.2.2.1, by rw [h1, h4]; exact h.2.2.2⟩
  case addCopy => exact ⟨h.1.congr h1 h2 h3 h4 h5, by rw [h1, h2, h4, h5]; exact h.2⟩
  case addFree => exact ⟨h.1.congr h1 h2 h3 h4 h5, by rw [h2]; exact h.2.1, by rw [h1]; exact h.2.2.1, h.2.2.2.congr h4 h5⟩
  case addS1 => exact ⟨h.1, h.2.congr h4 h5⟩
  case addS2 => exact ⟨h.1, h.2.1.congr h4 h5, by rw [h1]; exact h.2.2⟩
  case addS3 => exact ⟨h.1.congr h4 h5, by rw [h1]; exact h.2.1, by rw [h2]; exact h.2.2⟩
  case remEnd => obtain ⟨a, C, b, c⟩ := h; exact ⟨by rw [h1]; exact a, C, b.congr h1 h2 h3 h4 h5, c⟩
  case remCell => obtain ⟨a, e, C, b, c⟩ := h; exact ⟨by rw [h1]; exact a, by rw [h2]; exact e, C, b.congr h1 h2 h3 h4 h5, c⟩
  case remMove => obtain ⟨a, e, C, b⟩ := h; exact ⟨by rw [h1]; exact a, by rw [h2]; exact e, C, b.congr h1 h2 h3 h4 h5⟩
  case remStore => obtain ⟨a, e, C, b⟩ := h; exact ⟨by rw [h1]; exact a, by rw [h2]; exact e, C, b.congr h1 h2 h3 h4 h5⟩

theorem RInv.congr {s s' : St} {L : List Nat} {pc : Pc} (h : RInv s L pc) (h1 : s'.start = s.start) (h2 : s'.fin = s.fin)
    (h3 : ∀ c, s.seq c ≤ s'.seq c) : RInv s' L pc := by
  have sc : ∀ {m0 m i reads}, Scan s L m0 m i reads → Scan s' L m0 m i reads := fun h => ⟨h.ids, h.min, fun p hp => Int.le_trans (h.low p hp) (h3 _)⟩
  cases pc <;> simp only [RInv, h1, h2] at h ⊢
  case minEnd => exact h
  case minCell => exact ⟨h.1, h.2.1, h.2.2.1, sc h.2.2.2⟩
  case minSeq => exact ⟨h.1, h.2.1, h.2.2.1, sc h.2.2.2⟩

/-- The calling thread is the only one. -/
theorem Inv.of_writer {s s' : St} {t : Nat} {p : Pc} (h : Inv s) (ho : ∀ u, u ≠ t → s.pc u = .idle) (hb : s'.bad = false) (hp : s'.pc = upd s.pc t p)
    (hh : s'.hist = s.hist) (hw : p.writer = true) (hi : WInv s' (registered s.hist) p) : Inv s' := by
  refine ⟨hb, .inl ⟨t, by rw [hp, upd_same]; exact hw, fun u hu => by rw [hp, upd_other _ _ hu]; exact ho u hu, by rw [hp, upd_same, hh]; exact hi⟩, by rw [hh]; exact h.hist⟩

/-- A writer returns. -/
theorem Inv.of_return {s s' : St} {t : Nat} {e : Ev} (h : Inv s) (ho : ∀ u, u ≠ t → s.pc u = .idle) (hb : s'.bad = false) (hp : s'.pc = upd s.pc t .idle)
    (hh : s'.hist = s.hist ++ [e]) (he : EvOk s.hist e) (hi : Holds s' (registered (s.hist ++ [e]))) : Inv s' := by
  have hid : ∀ u, s'.pc u = .idle := by
    intro u
    rw [hp]
    by_cases e : u = t
    · subst e; exact upd_same ..
    · rw [upd_other _ _ e]; exact ho u e
  exact ⟨hb, .inr ⟨fun u => by rw [hid]; rfl, by rw [hh]; exact hi, fun u => by rw [hid]; trivial⟩, by rw [hh]; exact hist_append h.hist he⟩

/-- A reader goes on. -/
theorem Inv.of_reader {s s' : St} {t : Nat} {p : Pc} (h : Inv s) (hn : ∀ u, (s.pc u).writer = false) (hv : Holds s (registered s.hist))
    (hr : ∀ u, RInv s (registered s.hist) (s.pc u)) (hb : s'.bad = false) (hp : s'.pc = upd s.pc t p) (hh : s'.hist = s.hist) (h1 : s'.start = s.start)
    (h2 : s'.fin = s.fin) (h3 : s'.eos = s.eos) (h4 : s'.heap = s.heap) (h5 : s'.fresh = s.fresh) (h6 : s'.seq = s.seq)
    (hw : p.writer = false) (hi : RInv s (registered s.hist) p) : Inv s' := by
  refine ⟨hb, .inr ⟨fun u => ?_, by rw [hh]; exact hv.congr h1 h2 h3 h4 h5, fun u => ?_⟩, by rw [hh]; exact h.hist⟩
  · rw [hp]
    by_cases e : u = t
    · subst e; rw [upd_same]; exact hw
    · rw [upd_other _ _ e]; exact hn u
  · rw [hp, hh]
    by_cases e : u = t
    · subst e; rw [upd_same]; exact hi.congr h1 h2 (fun c => by rw [h6]; exact Int.le_refl _)
    · rw [upd_other _ _ e]; exact (hr u).congr h1 h2 (fun c => by rw [h6]; exact Int.le_refl _)

theorem wr_ok {s : St} {b i c : Nat} (h1 : (s.heap b).alive = true) (h2 : i < (s.heap b).size) :
    wr s b i c = { s with heap := upd s.heap b { s.heap b with cell := upd (s.heap b).cell i (some c) } } := by
  unfold wr; rw [if_pos ⟨h1, h2⟩]

theorem rd_ok {s : St} {b i : Nat} (h1 : (s.heap b).alive = true) (h2 : i < (s.heap b).size) : rd s b i = (s.heap b).cell i := by
  unfold rd; rw [if_pos ⟨h1, h2⟩]

/-- A step of a thread that adds or removes. -/
theorem Inv.tau_writer {grow : Nat → Nat} {s s' : St} {t : Nat} (hg : ∀ n, n < grow n) (h : Inv s) (hw : (s.pc t).writer = true)
    (ho : ∀ u, u ≠ t → s.pc u = .idle) (hi : WInv s (registered s.hist) (s.pc t)) (hs : GVec.tau grow s t = some s') : Inv s' := by
  generalize hL : registered s.hist = L at hi
  have cont : ∀ {s1 : St} {p : Pc}, s1.bad = false → s1.pc = upd s.pc t p → s1.hist = s.hist → p.writer = true → WInv s1 L p → Inv s1 :=
    fun h1 h2 h3 h4 h5 => h.of_writer ho h1 h2 h3 h4 (by rw [hL]; exact h5)
  have hb := h.good
  cases hq : s.pc t with
  | idle | minBegin | minEnd | minCell | minSeq => rw [hq] at hw; cases hw
  | addLoad c =>
    simp only [GVec.tau, hq, Option.some.injEq] at hs; subst hs
    rw [hq] at hi
    exact cont hb rfl rfl rfl (Holds.congr hi rfl rfl rfl rfl rfl)
  | addSet c v =>
    simp only [GVec.tau, hq, Option.some.injEq] at hs; subst hs
    rw [hq] at hi
    exact cont hb rfl rfl rfl (Holds.congr hi rfl rfl rfl rfl rfl)
  | addFin c =>
    simp only [GVec.tau, hq, Option.some.injEq] at hs; subst hs
    rw [hq] at hi
    exact cont hb rfl rfl rfl ⟨Holds.congr hi rfl rfl rfl rfl rfl, rfl⟩
  | addEos c f =>
    simp only [GVec.tau, hq, Option.some.injEq] at hs; subst hs
    rw [hq] at hi
    obtain ⟨h1, h2⟩ := hi
    by_cases e : f = s.eos
    · rw [if_pos e]
      exact cont hb rfl rfl rfl ⟨h1.congr rfl rfl rfl rfl rfl, h2⟩
    · rw [if_neg e]
      refine cont hb rfl rfl rfl ⟨h1.congr rfl rfl rfl rfl rfl, h2, Nat.lt_of_le_of_ne h1.le fun e' => e ?_⟩
      rw [h2, h1.fin, h1.eos, show L.length = (s.heap s.start).size from e']
  | addCell c f =>
    simp only [GVec.tau, hq, Option.some.injEq] at hs
    rw [hq] at hi
    obtain ⟨h1, h2, h3⟩ := hi
    rw [h2, h1.fin] at hs
    rw [wr_ok h1.alive h3] at hs
    subst hs
    refine cont hb rfl rfl rfl ⟨⟨h1.fin, ?_, ?_, ?_, fun i hi => ?_, h1.fresh⟩, h1.fin.symm, ?_, ?_⟩
    · simpa [goto] using h1.eos
    · simpa [goto] using h1.le
    · simpa [goto] using h1.alive
    · simp [goto, upd_apply, Nat.ne_of_lt hi, h1.cells i hi]
    · simpa [goto] using h3
    · simp [goto]
  | addInc c f =>
    simp only [GVec.tau, hq, Option.some.injEq] at hs; subst hs
    rw [hq] at hi
    obtain ⟨h1, h2, h3, h4⟩ := hi
    refine h.of_return (e := .add c) ho hb rfl rfl trivial ?_
    rw [registered_append, hL]
    refine ⟨?_, h1.eos, ?_, h1.alive, fun i hi => ?_, h1.fresh⟩
    · simp [ret, h2, h1.fin]
    · simp only [ret, List.length_append, List.length_singleton]; exact h3
    · by_cases e : i = L.length
      · subst e; simpa [ret] using h4
      · have : i < L.length := by simp at hi; omega
        rw [List.getElem?_append_left this]; exact h1.cells i this
  | addAlloc c f =>
    simp only [GVec.tau, hq] at hs
    rw [hq] at hi
    obtain ⟨h1, h2⟩ := hi
    rw [if_pos (by rw [h2, h1.fin])] at hs
    cases hs
    have hne : s.start ≠ s.fresh := Nat.ne_of_lt h1.fresh
    have e : upd s.heap s.fresh ⟨true, grow f.2, upd (fun _ => none) f.2 (some c)⟩ s.start = s.heap s.start := upd_other _ _ hne
    have e2 : f.2 = L.length := by rw [h2, h1.fin]
    refine cont hb rfl rfl rfl ⟨⟨h1.fin, ?_, ?_, ?_, ?_, ?_⟩, h2, ?_, ?_, ?_, ?_, ?_, Nat.zero_le _, fun i hi => absurd hi (Nat.not_lt_zero _)⟩
    · simp only [goto, e]; exact h1.eos
    · simp only [goto, e]; exact h1.le
    · simp only [goto, e]; exact h1.alive
    · simp only [goto, e]; exact h1.cells
    · exact Nat.lt_succ_of_lt h1.fresh
    · exact hne.symm
    · exact Nat.lt_succ_self _
    · simp [goto]
    · simp [goto, e2, hg]
    · simp [goto, e2]
  | addCopy c f j nb =>
    simp only [GVec.tau, hq] at hs
    rw [hq] at hi
    obtain ⟨h1, h2, h3, h4, h5, h6, h7, h8, h9⟩ := hi
    have e2 : f.2 = L.length := by rw [h2, h1.fin]
    have e1 : f.1 = s.start := by rw [h2, h1.fin]
    by_cases e : j = f.2
    · rw [if_pos e] at hs
      cases hs
      refine cont hb rfl rfl rfl ⟨h1.congr rfl rfl rfl rfl rfl, h2, h3, ⟨h4, h5, h6, ?_, h7⟩⟩
      rw [← e2, ← e]; exact h9
    · rw [if_neg e] at hs
      have hj : j < L.length := by omega
      have hr : rd s f.1 j = some L[j] := by
        rw [e1, rd_ok h1.alive (Nat.lt_of_lt_of_le hj h1.le), h1.cells j hj]; simp
      rw [hr] at hs
      simp only [Option.some.injEq] at hs
      rw [wr_ok h5 (by omega)] at hs
      subst hs
      have eh : ∀ B, upd s.heap nb B s.start = s.heap s.start := fun B => upd_other _ _ h3.symm
      refine cont hb rfl rfl rfl ⟨⟨h1.fin, ?_, ?_, ?_, ?_, h1.fresh⟩, h2, h3, h4, ?_, ?_, ?_, hj, fun i hi => ?_⟩
      · simp only [goto, eh]; exact h1.eos
      · simp only [goto, eh]; exact h1.le
      · simp only [goto, eh]; exact h1.alive
      · simp only [goto, eh]; exact h1.cells
      · simp [goto, h5]
      · simp [goto, h6]
      · simp [goto, upd_apply, Nat.ne_of_gt hj, h7]
      · by_cases e : i = j
        · subst e; simp [goto]
        · simp only [goto, upd_same, upd_other _ _ e]; exact h9 i (by omega)
  | addFree c f nb =>
    simp only [GVec.tau, hq] at hs
    rw [hq] at hi
    obtain ⟨h1, h2, h3, h4⟩ := hi
    have e1 : f.1 = s.start := by rw [h2, h1.fin]
    by_cases e0 : f.1 = 0
    · rw [if_pos e0] at hs
      cases hs
      exact cont hb rfl rfl rfl ⟨by rw [h2, h1.fin], h4.congr rfl rfl⟩
    rw [if_neg e0, e1, if_pos h1.alive] at hs
    cases hs
    have eh : ∀ B, upd s.heap s.start B nb = s.heap nb := fun B => upd_other _ _ h3
    refine cont hb rfl rfl rfl ⟨by rw [h2, h1.fin], ⟨h4.fresh, ?_, ?_, ?_, ?_⟩⟩
    · simp only [goto, eh]; exact h4.alive
    · simp only [goto, eh]; exact h4.lt
    · simp only [goto, eh]; exact h4.cells
    · simp only [goto, eh]; exact h4.last
  | addS1 c f nb =>
    simp only [GVec.tau, hq, Option.some.injEq] at hs; subst hs
    rw [hq] at hi
    exact cont hb rfl rfl rfl ⟨hi.1, hi.2.congr rfl rfl, rfl⟩
  | addS2 c f nb =>
    simp only [GVec.tau, hq, Option.some.injEq] at hs; subst hs
    rw [hq] at hi
    exact cont hb rfl rfl rfl ⟨hi.2.1.congr rfl rfl, hi.2.2, by simp [goto, hi.1]⟩
  | addS3 c nb =>
    simp only [GVec.tau, hq, Option.some.injEq] at hs; subst hs
    rw [hq] at hi
    obtain ⟨h1, h2, h3⟩ := hi
    refine h.of_return (e := .add c) ho hb rfl rfl trivial ?_
    rw [registered_append, hL]
    refine ⟨?_, ?_, ?_, ?_, fun i hi => ?_, ?_⟩
    · simp [ret, h2, h3]
    · simp [ret, h2]
    · simp only [ret, h2, List.length_append, List.length_singleton]; exact h1.lt
    · simp only [ret, h2]; exact h1.alive
    · simp only [ret, h2]
      by_cases e : i = L.length
      · subst e; simpa using h1.last
      · have : i < L.length := by simp at hi; omega
        rw [List.getElem?_append_left this]; exact h1.cells i this
    · simp only [ret, h2]; exact h1.fresh
  | remBegin x =>
    simp only [GVec.tau, hq, Option.some.injEq] at hs; subst hs
    rw [hq] at hi
    exact cont hb rfl rfl rfl ⟨rfl, L, Holds.congr hi rfl rfl rfl rfl rfl, Nat.zero_le _, by simp, rfl, by simp⟩
  | remEnd x b i r =>
    simp only [GVec.tau, hq] at hs
    rw [hq] at hi
    obtain ⟨h1, C, h2, h3⟩ := hi
    by_cases e : (b, i) = s.fin
    · rw [if_pos e] at hs
      cases hs
      rw [h2.fin] at e
      have hi' : i = C.length := by cases e; rfl
      have hx : x ∉ C := by have := h3.before; rwa [hi', List.take_length] at this
      refine h.of_return (e := .rem x r) ho hb rfl rfl ?_ ?_
      · simp only [EvOk, hL]
        rw [h3.mem]
        simp [hx]
      · rw [registered_append, hL]
        dsimp only
        rw [← h3.same, List.filter_eq_self.2 (fun a ha => by simp; rintro rfl; exact hx ha)]
        exact h2.congr rfl rfl rfl rfl rfl
    · rw [if_neg e] at hs
      cases hs
      refine cont hb rfl rfl rfl ⟨h1, rfl, C, h2.congr rfl rfl rfl rfl rfl, h3, Nat.lt_of_le_of_ne h3.le fun e' => e ?_⟩
      rw [h2.fin, h1, e']
  | remCell x b i f r =>
    simp only [GVec.tau, hq] at hs
    rw [hq] at hi
    obtain ⟨h1, h2, C, h3, h4, h5⟩ := hi
    have hr : rd s b i = some C[i] := by rw [h1, rd_ok h3.alive (Nat.lt_of_lt_of_le h5 h3.le), h3.cells i h5]; simp
    rw [hr] at hs
    simp only [Option.some.injEq] at hs
    subst hs
    by_cases e : C[i] = x
    · rw [if_pos e]
      refine cont hb rfl rfl rfl ⟨h1, h2, C, h3.fin, h3.eos, h3.le, h3.alive, fun q hq => ?_, h3.fresh, Nat.le_refl _, h5, by simp [h5, e], h4.before, h4.same, ?_⟩
      · rw [if_neg (by omega)]; exact h3.cells q hq
      · exact h4.mem.2 (.inr (e ▸ List.getElem_mem h5))
    · rw [if_neg e]
      refine cont hb rfl rfl rfl ⟨h1, C, h3.congr rfl rfl rfl rfl rfl, h5, ?_, h4.same, h4.mem⟩
      rw [List.take_add_one, List.mem_append]
      simp only [h5, List.getElem?_eq_getElem, Option.toList_some, List.mem_singleton, not_or]
      exact ⟨h4.before, fun e' => e e'.symm⟩
  | remMove x b i j f =>
    simp only [GVec.tau, hq] at hs
    rw [hq] at hi
    obtain ⟨h1, h2, C, h3⟩ := hi
    by_cases e : (b, j + 1) = f
    · rw [if_pos e] at hs
      cases hs
      refine cont hb rfl rfl rfl ⟨h1, h2, C, ?_⟩
      have : C.length - 1 = j := by rw [h2, h3.fin] at e; have := (Prod.mk.inj e).2; omega
      rw [this]
      exact h3.congr rfl rfl rfl rfl rfl
    · rw [if_neg e] at hs
      have hj : j + 1 < C.length := Nat.lt_of_le_of_ne h3.jlt (fun e' => e (by rw [h2, h3.fin, h1, ← e']))
      have hr : rd s b (j + 1) = some C[j + 1] := by
        rw [h1, rd_ok h3.alive (Nat.lt_of_lt_of_le hj h3.le), h3.cells _ hj, if_neg (by omega)]; simp
      rw [hr] at hs
      simp only [Option.some.injEq] at hs
      have hlt : j < (s.heap s.start).size := Nat.lt_of_lt_of_le h3.jlt h3.le
      rw [h1, wr_ok h3.alive hlt] at hs
      subst hs
      refine cont hb rfl rfl rfl ⟨rfl, h2, C, h3.fin, ?_, ?_, ?_, fun q hq => ?_, h3.fresh, Nat.le_succ_of_le h3.ij, hj, h3.at_, h3.before, h3.same, h3.mem⟩
      · simpa [goto] using h3.eos
      · simpa [goto] using h3.le
      · simpa [goto] using h3.alive
      · have hij := h3.ij
        simp only [goto, upd_same]
        by_cases e : q = j
        · subst e; rw [upd_same, if_pos (by omega)]; simp [hj]
        · rw [upd_other _ _ e, h3.cells q hq]
          by_cases e2 : i ≤ q ∧ q < j
          · rw [if_pos e2, if_pos (by omega)]
          · rw [if_neg e2, if_neg (by omega)]
  | remStore x b i f =>
    simp only [GVec.tau, hq, Option.some.injEq] at hs; subst hs
    rw [hq] at hi
    obtain ⟨h1, h2, C, h3⟩ := hi
    have hij := h3.ij
    have hjl := h3.jlt
    have hil : i < C.length := by omega
    have hat : C[i] = x := by have := h3.at_; simpa [hil] using this
    have hlen : (C.eraseIdx i).length = C.length - 1 := List.length_eraseIdx_of_lt hil
    have hsplit : C = C.take i ++ x :: C.drop (i + 1) := by
      rw [← hat, ← List.drop_eq_getElem_cons hil, List.take_append_drop]
    have her : C.eraseIdx i = C.take i ++ C.drop (i + 1) := List.eraseIdx_eq_take_drop_succ ..
    refine cont hb rfl rfl rfl ⟨h1, C.eraseIdx i, ⟨?_, h3.eos, ?_, h3.alive, fun q hq => ?_, h3.fresh⟩, ⟨by omega, ?_, ?_, ?_⟩⟩
    · simp [goto, h2, h3.fin, hlen]
    · have := h3.le; simp only [goto]; omega
    · rw [hlen] at hq
      have := h3.cells q (by omega)
      simp only [goto]
      rw [this, List.getElem?_eraseIdx]
      by_cases e : i ≤ q
      · rw [if_pos ⟨e, hq⟩, if_neg (by omega)]
      · rw [if_neg (fun x => e x.1), if_pos (by omega)]
    · rw [her, List.take_append_of_le_length (by rw [List.length_take]; omega)]
      intro hm
      exact h3.before (List.mem_of_mem_take hm)
    · rw [← h3.same]
      have : C.filter (· ≠ x) = (C.take i ++ x :: C.drop (i + 1)).filter (· ≠ x) := by rw [← hsplit]
      rw [this, her]
      simp
    · exact ⟨fun _ => .inl rfl, fun _ => h3.mem⟩

/-- A step of a thread that asks for the minimum. -/
theorem Inv.tau_reader {grow : Nat → Nat} {s s' : St} {t : Nat} (h : Inv s) (hn : ∀ u, (s.pc u).writer = false) (hv : Holds s (registered s.hist))
    (hr : ∀ u, RInv s (registered s.hist) (s.pc u)) (hs : GVec.tau grow s t = some s') : Inv s' := by
  have hi := hr t
  have hw := hn t
  have cont : ∀ {p : Pc}, p.writer = false → RInv s (registered s.hist) p → Inv (goto s t p) :=
    fun h1 h2 => h.of_reader hn hv hr h.good rfl rfl rfl rfl rfl rfl rfl rfl h1 h2
  cases hq : s.pc t <;> simp only [hq, Pc.writer, Bool.true_eq_false] at hw
  case idle => simp [GVec.tau, hq] at hs
  case minBegin m0 =>
    simp only [GVec.tau, hq, Option.some.injEq] at hs; subst hs
    exact cont rfl rfl
  case minEnd m0 b =>
    simp only [GVec.tau, hq, Option.some.injEq] at hs; subst hs
    rw [hq] at hi
    exact cont rfl ⟨hi, rfl, Nat.zero_le _, rfl, ⟨.inl rfl, Int.le_refl _, nofun⟩, nofun⟩
  case minCell m0 m b i e reads =>
    simp only [GVec.tau, hq] at hs
    rw [hq] at hi
    obtain ⟨h1, h2, h3, h4⟩ := hi
    by_cases he : (b, i) = e
    · rw [if_pos he] at hs
      cases hs
      have hil : i = (registered s.hist).length := by rw [h2, hv.fin] at he; cases he; rfl
      have hok : EvOk s.hist (.min m0 reads m) := ⟨by rw [h4.ids, hil, List.take_length], h4.min⟩
      refine ⟨h.good, .inr ⟨fun u => ?_, ?_, fun u => ?_⟩, hist_append h.hist hok⟩
      · simp only [ret]
        by_cases e : u = t
        · subst e; rw [upd_same]; rfl
        · rw [upd_other _ _ e]; exact hn u
      · simp only [ret, registered_append]; exact hv.congr rfl rfl rfl rfl rfl
      · simp only [ret, registered_append]
        by_cases e : u = t
        · subst e; rw [upd_same]; trivial
        · rw [upd_other _ _ e]; exact (hr u).congr rfl rfl (fun _ => Int.le_refl _)
    · rw [if_neg he] at hs
      have hil : i < (registered s.hist).length := Nat.lt_of_le_of_ne h3 (fun e' => he (by rw [h2, hv.fin, h1, e']))
      have hrd : rd s b i = some (registered s.hist)[i] := by
        rw [h1, rd_ok hv.alive (Nat.lt_of_lt_of_le hil hv.le), hv.cells i hil]; simp
      rw [hrd] at hs
      simp only [Option.some.injEq] at hs
      subst hs
      exact cont rfl ⟨h1, h2, by simp, h4⟩
  case minSeq m0 m c b i e reads =>
    simp only [GVec.tau, hq, Option.some.injEq] at hs; subst hs
    rw [hq] at hi
    obtain ⟨h1, h2, h3, h4⟩ := hi
    obtain ⟨hil, hc⟩ := List.getElem?_eq_some_iff.mp h3
    refine cont rfl ⟨h1, h2, hil, ?_, ?_, ?_⟩
    · rw [List.map_append, h4.ids, List.take_add_one, h3]; rfl
    · obtain ⟨a1, a2, a3⟩ := h4.min
      simp only [List.map_append, List.map_cons, List.map_nil, IsMin, List.mem_append, List.mem_singleton]
      by_cases hlt : s.seq c < m
      · rw [if_pos hlt]
        refine ⟨.inr (.inr rfl), by omega, fun v hv => ?_⟩
        rcases hv with hv | hv
        · have := a3 v hv; omega
        · omega
      · rw [if_neg hlt]
        refine ⟨a1.imp_right .inl, a2, fun v hv => ?_⟩
        rcases hv with hv | hv
        · exact a3 v hv
        · omega
    · intro p hp
      rcases List.mem_append.mp hp with hp | hp
      · exact h4.low p hp
      · cases List.mem_singleton.mp hp; exact Int.le_refl _

theorem Inv.step {grow : Nat → Nat} {s s' : St} {a : Act} (hg : ∀ n, n < grow n) (h : Inv s) (hok : Alone s a) (hs : GVec.step grow s a = some s') : Inv s' := by
  have start : ∀ {t : Nat} {p : Pc}, (∀ u, s.pc u = .idle) → p.writer = true → (∀ L, Holds s L → WInv (goto s t p) L p) → Inv (goto s t p) := by
    intro t p hid hw hp
    rcases h.calls with ⟨u, h1, _⟩ | ⟨_, h2, _⟩
    · rw [hid] at h1; cases h1
    · exact h.of_writer (fun u _ => hid u) h.good rfl rfl hw (hp _ h2)
  cases a with
  | callAdd t c =>
    simp only [GVec.step] at hs
    split at hs
    · cases hs; exact start hok rfl (fun L hL => Holds.congr hL rfl rfl rfl rfl rfl)
    · cases hs
  | callRem t x =>
    simp only [GVec.step] at hs
    split at hs
    · cases hs; exact start hok rfl (fun L hL => Holds.congr hL rfl rfl rfl rfl rfl)
    · cases hs
  | callMin t m0 =>
    simp only [GVec.step] at hs
    split at hs
    · cases hs
      rcases h.calls with ⟨u, h1, _⟩ | ⟨_, h2, h3⟩
      · rw [hok u] at h1; cases h1
      · exact h.of_reader hok h2 h3 h.good rfl rfl rfl rfl rfl rfl rfl rfl rfl trivial
    · cases hs
  | tau t =>
    rcases h.calls with ⟨u, h1, h2, h3⟩ | ⟨h1, h2, h3⟩
    · by_cases e : t = u
      · subst e; exact h.tau_writer hg h1 h2 h3 hs
      · have := h2 t e
        simp [GVec.step, GVec.tau, this] at hs
    · exact h.tau_reader h1 h2 h3 hs
  | advance v =>
    simp only [GVec.step] at hs
    split at hs
    · cases hs
      refine ⟨h.good, h.calls.imp ?_ ?_, h.hist⟩
      · rintro ⟨u, h1, h2, h3⟩; exact ⟨u, h1, h2, h3.congr rfl rfl rfl rfl rfl⟩
      · rintro ⟨h1, h2, h3⟩; exact ⟨h1, h2.congr rfl rfl rfl rfl rfl, fun u => (h3 u).congr rfl rfl (fun _ => Int.le_refl _)⟩
    · cases hs
  | progress c v =>
    simp only [GVec.step] at hs
    split at hs
    · next hle =>
      cases hs
      refine ⟨h.good, h.calls.imp ?_ ?_, h.hist⟩
      · rintro ⟨u, h1, h2, h3⟩; exact ⟨u, h1, h2, h3.congr rfl rfl rfl rfl rfl⟩
      · rintro ⟨h1, h2, h3⟩
        refine ⟨h1, h2.congr rfl rfl rfl rfl rfl, fun u => (h3 u).congr rfl rfl (fun d => ?_)⟩
        by_cases e : d = c
        · subst e; simpa using hle
        · simp [upd_other _ _ e]
    · cases hs

theorem Reach.inv {grow : Nat → Nat} {s : St} (hg : ∀ n, n < grow n) (h : Reach grow Alone s) : Inv s := by
  induction h with
  | init => exact Inv.init
  | step _ hok hs ih => exact ih.step hg hok hs

end Verif.GVec
