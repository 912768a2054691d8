import Verif.Lemmas.MultiRing

/-! Histories and progress of the multi producer ring. -/

namespace Verif.MRing
open Verif Verif.Disr

variable {V : Type}

/-- Claims, newest first, tile the sequences `0 .. e`. -/
def Chain : List (Nat × Int × Int) → Int → Prop
  | [], e => e = -1
  | (_, lo, hi) :: l, e => hi = e ∧ lo ≤ hi ∧ Chain l (lo - 1)

theorem Chain.step {k : Nat} {s s' : St V} {a : Act V} (hp : Pos s) (h : Chain s.claims s.cursor)
    (hs : step k s a = some s') : Chain s'.claims s'.cursor := by
  cases a with
  | pstep p =>
    have hp := hp p
    simp only [MRing.step, MRing.pstep] at hs
    (repeat' split at hs) <;> (try cases hs) <;> (try exact h)
    · rename_i n cur he hc; rw [he] at hp; simp only [PPc.arg] at hp; subst hc
      exact ⟨rfl, by omega, by simpa using h⟩
    · rename_i n cur he hc; rw [he] at hp; simp only [PPc.arg] at hp; subst hc
      exact ⟨rfl, by omega, by simpa using h⟩
  | _ =>
    simp only [MRing.step, MRing.weak] at hs
    (repeat' split at hs) <;> (try cases hs) <;> exact h

theorem Chain.bound {l : List (Nat × Int × Int)} {e : Int} (h : Chain l e) : -1 ≤ e ∧ ∀ x ∈ l, 0 ≤ x.2.1 ∧ x.2.2 ≤ e := by
  induction l generalizing e with
  | nil => simp only [Chain] at h; subst h; simp
  | cons a l ih =>
    obtain ⟨p, lo, hi⟩ := a
    obtain ⟨h1, h2, h3⟩ := h
    obtain ⟨i1, i2⟩ := ih h3
    refine ⟨by omega, ?_⟩
    intro x hx
    rcases List.mem_cons.mp hx with rfl | hx
    · simp only; omega
    · have := i2 x hx; omega

theorem Chain.disjoint {l : List (Nat × Int × Int)} {e : Int} (h : Chain l e) :
    l.Pairwise (fun a b => b.2.2 < a.2.1) := by
  induction l generalizing e with
  | nil => simp
  | cons a l ih =>
    obtain ⟨p, lo, hi⟩ := a
    obtain ⟨h1, h2, h3⟩ := h
    rw [List.pairwise_cons]
    refine ⟨fun b hb => ?_, ih h3⟩
    have := (h3.bound.2 b hb).2
    simp only; omega

theorem Chain.cover {l : List (Nat × Int × Int)} {e : Int} (h : Chain l e) (x : Int) (h0 : 0 ≤ x) (hx : x ≤ e) :
    ∃ a ∈ l, a.2.1 ≤ x ∧ x ≤ a.2.2 := by
  induction l generalizing e with
  | nil => simp only [Chain] at h; omega
  | cons a l ih =>
    obtain ⟨p, lo, hi⟩ := a
    obtain ⟨h1, h2, h3⟩ := h
    by_cases hl : lo ≤ x
    · exact ⟨_, List.mem_cons_self, hl, by simp only; omega⟩
    · obtain ⟨b, hb, hb'⟩ := ih h3 (by omega)
      exact ⟨b, List.mem_cons_of_mem _ hb, hb'⟩

theorem Reach.chain {k : Nat} {v : V} {s : St V} (h : Reach k v s) : Chain s.claims s.cursor := by
  induction h with
  | init => rfl
  | step hr _ hs ih => exact ih.step hr.pos hs

/-! ### Deliveries -/

/-- Last sequence handed to the handler. -/
def done (s : St V) (c : Nat) : Int :=
  match s.cp c with
  | .batch nx _ => nx - 1
  | .handle nx _ => nx
  | _ => s.seq c

/-- The handler of `c` has been called for `base+1, base+2, …, done`. -/
def LInv (s : St V) (c : Nat) : Prop :=
  ∃ n : Nat, done s c = s.base c + n ∧ (s.dlog c).reverse.map (·.1) = (List.range n).map (fun i : Nat => s.base c + 1 + (i : Int))

theorem LInv.congr {s s' : St V} {c : Nat} (h : LInv s c) (h1 : done s' c = done s c) (h2 : s'.base c = s.base c)
    (h3 : s'.dlog c = s.dlog c) : LInv s' c := by
  obtain ⟨n, a, b⟩ := h
  exact ⟨n, by rw [h1, h2, a], by rw [h3, h2, b]⟩

theorem LInv.step {k : Nat} {s s' : St V} {a : Act V} (hi : Inv k s) (h : ∀ c ∈ s.gating, LInv s c)
    (hok : OkAct s a) (hs : step k s a = some s') : ∀ c ∈ s'.gating, LInv s' c := by
  have same : ∀ (d : Nat) (pc : CPc) (q : Int) (c : Nat), c ∈ s.gating →
      (c = d → done { s with seq := upd s.seq d q, cp := upd s.cp d pc } d = done s d) →
      LInv { s with seq := upd s.seq d q, cp := upd s.cp d pc } c := by
    intro d pc q c hc hd
    refine LInv.congr (h c hc) ?_ rfl rfl
    by_cases he : c = d
    · subst he; exact hd rfl
    · simp [done, he]
  have same' : ∀ (d : Nat) (pc : CPc) (c : Nat), c ∈ s.gating →
      (c = d → done { s with cp := upd s.cp d pc } d = done s d) →
      LInv { s with cp := upd s.cp d pc } c := by
    intro d pc c hc hd
    have := same d pc (s.seq d) c hc
    rw [upd_self] at this
    exact this hd
  cases a with
  | addGating d =>
    simp only [MRing.step] at hs
    cases hs
    intro c hc
    by_cases he : c = d
    · subst he
      refine ⟨0, ?_, by simp⟩
      simp only [done, hok.2, upd_same]; simp
    · have hc' : c ∈ s.gating := by simpa [he] using hc
      apply (h c hc').congr
      · simp [done, he]
      · simp [he]
      · simp [he]
  | removeGating d =>
    simp only [MRing.step] at hs
    cases hs
    intro c hc
    exact (h c (List.mem_of_mem_filter hc)).congr rfl rfl rfl
  | pstep p =>
    simp only [MRing.step, MRing.pstep] at hs
    (repeat' split at hs) <;> (try cases hs) <;> exact fun c hc => (h c hc).congr rfl rfl rfl
  | run d =>
    simp only [MRing.step] at hs
    split at hs
    · rename_i hp
      cases hs
      exact fun c hc => same' d _ c hc (fun _ => by simp [done, hp])
    · cases hs
  | look d =>
    simp only [MRing.step] at hs
    split at hs
    · rename_i nx he
      split at hs
      · cases hs; exact h
      · cases hs
        exact fun c hc => same' d _ c hc (fun _ => by simp [done, he])
    · cases hs
  | scan d =>
    simp only [MRing.step] at hs
    split at hs
    · rename_i nx hi' i he
      split at hs
      · split at hs
        · cases hs
          exact fun c hc => same' d _ c hc (fun _ => by simp [done, he])
        · cases hs
          intro c hc
          refine same' d _ c hc (fun hcd => ?_)
          subst hcd
          have := hi.cons c hc
          rw [he] at this
          simp [done, he, this.1]
      · cases hs
        intro c hc
        refine same' d _ c hc (fun hcd => ?_)
        subst hcd
        have := hi.cons c hc
        rw [he] at this
        simp [done, he, this.1]
    · cases hs
  | advance d =>
    simp only [MRing.step] at hs
    split at hs
    · rename_i nx av he
      split at hs
      · cases hs
        intro c hc
        by_cases hcd : c = d
        · subst hcd
          obtain ⟨n, h1, h2⟩ := h c hc
          simp only [done, he] at h1
          refine ⟨n + 1, ?_, ?_⟩
          · simp only [done, upd_same]; push_cast; omega
          · simp only [upd_same, List.reverse_cons, List.map_append, h2, List.range_succ]
            simp only [List.map_cons, List.map_nil, List.append_cancel_left_eq, List.cons.injEq, and_true]
            omega
        · apply (h c hc).congr
          · simp [done, hcd]
          · rfl
          · simp [hcd]
      · rename_i hn
        cases hs
        intro c hc
        refine same d _ _ c hc (fun hcd => ?_)
        subst hcd
        have := hi.cons c hc
        rw [he] at this
        obtain ⟨a1, a2, a3, a4⟩ := this
        simp only [done, he, upd_same]
        omega
    · cases hs
  | finish d =>
    simp only [MRing.step] at hs
    split at hs
    · rename_i nx av he
      cases hs
      exact fun c hc => same' d _ c hc (fun _ => by simp [done, he])
    · cases hs
  | throw d =>
    simp only [MRing.step] at hs
    split at hs
    · rename_i nx av he
      cases hs
      exact fun c hc => same d _ _ c hc (fun _ => by simp [done, he])
    · cases hs
  | leave d =>
    simp only [MRing.step] at hs
    split at hs
    · rename_i nx he
      cases hs
      exact fun c hc => same' d _ c hc (fun _ => by simp [done, he])
    · cases hs
  | _ =>
    simp only [MRing.step, MRing.weak] at hs
    (repeat' split at hs) <;> (try cases hs) <;> exact fun c hc => (h c hc).congr rfl rfl rfl

theorem Reach.logs {k : Nat} (hk : k ≤ 30) {v : V} {s : St V} (h : Reach k v s)
    (hlim : s.cursor < (2 ^ 32 - 1) * 2 ^ k) : ∀ c ∈ s.gating, LInv s c := by
  induction h with
  | init => intro c hc; simp [St.init] at hc
  | step hr hok hs ih =>
    have hm := cursor_mono hr.pos hs
    exact LInv.step (hr.inv hk (by omega)) (ih (by omega)) hok hs

/-! ### Progress of a processor -/

theorem run_append (k : Nat) (s : St V) (as bs : List (Act V)) :
    run k s (as ++ bs) = (run k s as).bind (fun s' => run k s' bs) := by
  induction as generalizing s with
  | nil => rfl
  | cons a as ih =>
    simp only [List.cons_append, run]
    cases step k s a with
    | none => rfl
    | some s' => exact ih s'

/-- Executing the scan from `i` finds the longest flagged prefix. -/
theorem scan_run {k : Nat} {s : St V} {c : Nat} {nx hi h : Int} (m : Nat) (i : Int) (hm : h + 1 = i + m)
    (hcp : s.cp c = .scan nx hi i) (hh : h ≤ hi)
    (hall : ∀ x, i ≤ x → x ≤ h → s.avail (availIdx k x) = availFlag k x)
    (hend : h = hi ∨ s.avail (availIdx k (h + 1)) ≠ availFlag k (h + 1)) :
    run k s (List.replicate (m + 1) (.scan c)) = some { s with cp := upd s.cp c (.batch nx h) } := by
  induction m generalizing s i with
  | zero =>
    have : i = h + 1 := by simp at hm; omega
    subst this
    simp only [List.replicate, run, step, hcp]
    rcases hend with rfl | hend
    · rw [if_neg (by omega)]
    · by_cases hle : h + 1 ≤ hi
      · rw [if_pos hle, if_neg hend]; simp
      · have : hi = h := by omega
        subst this
        rw [if_neg hle]
  | succ m ih =>
    rw [List.replicate_succ]
    simp only [run, step, hcp]
    push_cast at hm
    rw [if_pos (by omega), if_pos (hall i (Int.le_refl _) (by omega))]
    simp only
    have := ih (s := { s with cp := upd s.cp c (.scan nx hi (i + 1)) }) (i + 1) (by omega) (by simp)
      (fun x h1 h2 => hall x (by omega) h2) hend
    rw [this]
    congr 1
    simp only [St.mk.injEq, true_and, and_true]
    funext d; simp only [upd_apply]; split <;> rfl

/-- Executing a batch calls the handler for each of its events. -/
theorem batch_run {k : Nat} {s : St V} {c : Nat} {av : Int} (m : Nat) (nx : Int) (hm : av + 1 = nx + m)
    (hcp : s.cp c = .batch nx av) :
    ∃ s', run k s ((List.replicate m [.advance c, .finish c]).flatten ++ [.advance c]) = some s' ∧
      s'.seq = upd s.seq c av ∧ s'.cp = upd s.cp c (.wait (av + 1)) ∧
      s'.dlog c = ((List.range m).map (fun i : Nat => (nx + (i : Int), decide (nx + (i : Int) = av)))).reverse ++ s.dlog c ∧
      s'.cursor = s.cursor ∧ s'.gating = s.gating ∧ s'.owner = s.owner ∧ s'.pp = s.pp ∧ s'.cache = s.cache := by
  induction m generalizing s nx with
  | zero =>
    have : nx = av + 1 := by simp at hm; omega
    subst this
    refine ⟨{ s with seq := upd s.seq c av, cp := upd s.cp c (.wait (av + 1)) }, ?_, rfl, rfl, by simp,
      rfl, rfl, rfl, rfl, rfl⟩
    simp only [List.replicate, List.flatten_nil, List.nil_append, run, step, hcp]
    rw [if_neg (by omega)]
  | succ m ih =>
    push_cast at hm
    rw [List.replicate_succ]
    simp only [List.flatten_cons, List.cons_append, List.nil_append, run, step, hcp]
    rw [if_pos (by omega)]
    simp only [upd_same]
    obtain ⟨s', h1, h2, h3, h4, h5⟩ := ih
      (s := { s with cp := upd (upd s.cp c (.handle nx av)) c (.batch (nx + 1) av),
                     dlog := upd s.dlog c ((nx, decide (nx = av)) :: s.dlog c) }) (nx + 1) (by omega) (by simp)
    refine ⟨s', h1, h2, ?_, ?_, h5⟩
    · rw [h3]; funext d; simp only [upd_apply]; split <;> rfl
    · rw [h4]
      simp only [upd_same]
      rw [List.range_succ_eq_map]
      simp only [List.map_cons, List.map_map, List.reverse_cons, List.append_assoc, List.cons_append, List.nil_append]
      congr 1
      · congr 1
        apply List.map_congr_left
        intro i _
        simp only [Function.comp_apply]
        push_cast
        have : nx + 1 + (i : Int) = nx + ((i : Int) + 1) := by omega
        rw [this]
      · simp

end Verif.MRing
