import Verif.Model.Chain
import Verif.Lemmas.Sequencer

/-! Invariant of the ring with dependent processors. -/

namespace Verif.Chain
open Verif Verif.Disr

variable {V : Type}

inductive Reach (cfg : Cfg) (v : V) : St V → Prop where
  | init : Reach cfg v (St.init v)
  | step {s s' a} : Reach cfg v s → step cfg s a = some s' → Reach cfg v s'

def PInv (s : St V) : PPc → Prop
  | .idle => True
  | .nScan n rest m => 1 ≤ n ∧ m ≤ s.nextVal ∧ ∀ c ∈ s.gating, c ∈ rest ∨ m ≤ s.seq c
  | .tScan n rest m => 1 ≤ n ∧ m ≤ s.nextVal ∧ ∀ c ∈ s.gating, c ∈ rest ∨ m ≤ s.seq c

/-- What holds of processor `c` with `seq c = q`. -/
def CInv (cfg : Cfg) (s : St V) (c : Nat) (q : Int) : CPc → Prop
  | .idle => True
  | .wait nx => nx = q + 1
  | .scan nx rest m => nx = q + 1 ∧ cfg.deps c ≠ [] ∧ ∀ d ∈ cfg.deps c, d ∈ rest ∨ m ≤ s.seq d
  | .batch nx av => q < nx ∧ nx ≤ av + 1 ∧ av ≤ s.cursor ∧ ∀ d ∈ cfg.deps c, av ≤ s.seq d
  | .handle nx av => q < nx ∧ nx ≤ av ∧ av ≤ s.cursor ∧ ∀ d ∈ cfg.deps c, av ≤ s.seq d

/-- The first sequence the processor has not finished. -/
def CPc.pos (q : Int) : CPc → Int
  | .idle => q + 1
  | .wait nx => nx
  | .scan nx _ _ => nx
  | .batch nx _ => nx
  | .handle nx _ => nx

def down : Nat → List Int
  | 0 => []
  | n + 1 => (n : Int) :: down n

theorem mem_down (n : Nat) (x : Int) : x ∈ down n ↔ 0 ≤ x ∧ x < n := by
  induction n with
  | zero => simp [down]
  | succ n ih => simp only [down, List.mem_cons, ih]; omega

theorem down_reverse (n : Nat) : (down n).reverse = (List.range n).map (fun i => (i : Int)) := by
  induction n with
  | zero => rfl
  | succ n ih => simp [down, ih, List.range_succ]

def HInv (cfg : Cfg) (s : St V) (c : Nat) : Prop :=
  if cfg.noop c then s.started c = [] ∧ s.ended c = [] ∧ ∀ nx av, s.cp c ≠ .handle nx av else
    s.ended c = down ((s.cp c).pos (s.seq c)).toNat ∧
    (match s.cp c with
     | .handle nx _ => s.started c = nx :: s.ended c
     | _ => s.started c = s.ended c)

structure Inv (cfg : Cfg) (s : St V) : Prop where
  cur_ge : -1 ≤ s.cursor
  cur_le : s.cursor ≤ s.nextVal
  seq_ge : ∀ p, -1 ≤ s.seq p
  seq_le : ∀ p, s.seq p ≤ s.cursor
  seq_dep : ∀ p, ∀ q ∈ cfg.deps p, s.seq p ≤ s.seq q
  cached_le : s.cached ≤ s.nextVal
  cached_seq : ∀ c ∈ s.gating, s.cached ≤ s.seq c
  over : ∀ c ∈ s.gating, s.nextVal ≤ s.seq c + 2 ^ cfg.k
  pub_none : ∀ x, s.cursor < x → s.pub x = none
  slot_pub : ∀ x, s.nextVal < x + 2 ^ cfg.k → 0 ≤ x → x ≤ s.cursor → s.pub x = some (s.slot (slotIdx cfg.k x))
  prod : PInv s s.pp
  cons : ∀ c, CInv cfg s c (s.seq c) (s.cp c)
  hist : ∀ c, HInv cfg s c

theorem slot_ne {k : Nat} (hk : k ≤ 30) {x y : Int} (h1 : x < y) (h2 : y < x + 2 ^ k) : slotIdx k x ≠ slotIdx k y := by
  rw [slotIdx_eq hk, slotIdx_eq hk]
  have hp : (0 : Int) < 2 ^ k := Int.pow_pos (by decide)
  have e1 := Int.emod_nonneg x (Int.ne_of_gt hp)
  have e2 := Int.emod_nonneg y (Int.ne_of_gt hp)
  intro h
  have h3 : x % 2 ^ k = y % 2 ^ k := by omega
  have h4 : (y - x) % 2 ^ k = 0 := Int.emod_eq_emod_iff_emod_sub_eq_zero.mp h3.symm
  rw [Int.emod_eq_of_lt (by omega) (by omega)] at h4
  omega

theorem Inv.init (cfg : Cfg) (v : V) : Inv cfg (St.init v) := by
  constructor <;> simp [St.init, PInv, CInv, HInv, CPc.pos, down]
  intros; omega

/-- Changing only the producer's own variables. -/
theorem Inv.prodStep {cfg : Cfg} {s : St V} (h : Inv cfg s) (pc : PPc) (m : Int) (nv : Int) (h0 : s.nextVal ≤ nv)
    (h1 : m ≤ nv) (h2 : ∀ c ∈ s.gating, m ≤ s.seq c) (h3 : ∀ c ∈ s.gating, nv ≤ s.seq c + 2 ^ cfg.k)
    (hp : PInv { s with nextVal := nv, cached := m, pp := pc } pc) :
    Inv cfg { s with nextVal := nv, cached := m, pp := pc } :=
  { h with
    cur_le := by have := h.cur_le; show s.cursor ≤ nv; omega
    cached_le := h1
    cached_seq := h2
    over := h3
    slot_pub := fun x hx => h.slot_pub x (by have : nv < x + 2 ^ cfg.k := hx; omega)
    prod := hp
    cons := fun c => by
      have := h.cons c
      cases e : s.cp c <;> simp only [e] at this ⊢ <;> exact this
    hist := h.hist }

theorem Inv.setPP {cfg : Cfg} {s : St V} (h : Inv cfg s) (pc : PPc) (hp : PInv s pc) : Inv cfg { s with pp := pc } := by
  have := h.prodStep pc s.cached s.nextVal (Int.le_refl _) h.cached_le h.cached_seq h.over
    (by cases pc <;> exact hp)
  exact this

theorem Inv.pstep {cfg : Cfg} {s s' : St V} (h : Inv cfg s) (hs : pstep (2 ^ cfg.k) s = some s') : Inv cfg s' := by
  have hp := h.prod
  have scan : ∀ {n : Int} {d : Nat} {rest : List Nat} {m : Int},
      (1 ≤ n ∧ m ≤ s.nextVal ∧ ∀ c ∈ s.gating, c ∈ d :: rest ∨ m ≤ s.seq c) →
      1 ≤ n ∧ (if s.seq d < m then s.seq d else m) ≤ s.nextVal ∧
        ∀ c ∈ s.gating, c ∈ rest ∨ (if s.seq d < m then s.seq d else m) ≤ s.seq c := by
    intro n d rest m hp
    obtain ⟨a, b, e⟩ := hp
    refine ⟨a, by split <;> omega, fun c hc => ?_⟩
    rcases e c hc with h1 | h1
    · rcases List.mem_cons.mp h1 with h2 | h2
      · subst h2; right; split <;> omega
      · exact Or.inl h2
    · right; split <;> omega
  unfold Chain.pstep at hs
  split at hs
  · cases hs
  · rename_i n d rest m e
    cases hs
    rw [e] at hp
    exact h.setPP _ (scan hp)
  · rename_i n m e
    rw [e] at hp
    obtain ⟨a, b, f⟩ := hp
    have f : ∀ c ∈ s.gating, m ≤ s.seq c := fun c hc => by simpa using f c hc
    split at hs <;> cases hs
    · exact h.setPP _ ⟨a, Int.le_refl _, fun c hc => Or.inl hc⟩
    · exact h.prodStep .idle m (s.nextVal + n) (by omega) (by omega) f
        (fun c hc => by have := f c hc; omega) trivial
  · rename_i n d rest m e
    cases hs
    rw [e] at hp
    exact h.setPP _ (scan hp)
  · rename_i n m e
    rw [e] at hp
    obtain ⟨a, b, f⟩ := hp
    have f : ∀ c ∈ s.gating, m ≤ s.seq c := fun c hc => by simpa using f c hc
    split at hs <;> cases hs
    · exact h.prodStep .idle m s.nextVal (Int.le_refl _) b f h.over trivial
    · exact h.prodStep .idle m (s.nextVal + n) (by omega) (by omega) f
        (fun c hc => by have := f c hc; omega) trivial

theorem Inv.call {cfg : Cfg} {s s' : St V} (h : Inv cfg s) {n : Int} {pc : PPc} (hn : 1 ≤ n)
    (hpc : PInv s pc)
    (hs : (if s.nextVal + n - 2 ^ cfg.k > s.cached ∨ s.cached > s.nextVal then some { s with pp := pc } else some (claim s n))
      = some s') : Inv cfg s' := by
  split at hs <;> cases hs
  · exact h.setPP _ hpc
  · rename_i hc
    have hcl := h.cached_le
    exact h.prodStep .idle s.cached (s.nextVal + n) (by omega) (by omega) h.cached_seq
      (fun c hc' => by have := h.cached_seq c hc'; omega) trivial

/-- A processor moves: its sequence does not go back, and stays behind what it depends on. -/
theorem Inv.consStep {cfg : Cfg} {s : St V} (h : Inv cfg s) (c : Nat) (q : Int) (pc : CPc) (st en : List Int)
    (h0 : s.seq c ≤ q) (h1 : q ≤ s.cursor) (h2 : ∀ d ∈ cfg.deps c, q ≤ s.seq d)
    (h3 : CInv cfg s c q pc)
    (h4 : HInv cfg { s with seq := upd s.seq c q, cp := upd s.cp c pc, started := upd s.started c st, ended := upd s.ended c en } c) :
    Inv cfg { s with seq := upd s.seq c q, cp := upd s.cp c pc, started := upd s.started c st, ended := upd s.ended c en } := by
  have hup : ∀ p, s.seq p ≤ upd s.seq c q p := by
    intro p; by_cases e : p = c
    · subst e; rw [upd_same]; exact h0
    · rw [upd_other _ _ e]
  have hcg : ∀ d r p, CInv cfg s d r p →
      CInv cfg { s with seq := upd s.seq c q, cp := upd s.cp c pc, started := upd s.started c st, ended := upd s.ended c en } d r p := by
    intro d r p hp
    cases p with
    | idle => trivial
    | wait nx => exact hp
    | scan nx rest m =>
      refine ⟨hp.1, hp.2.1, fun e he => ?_⟩
      rcases hp.2.2 e he with h5 | h5
      · exact Or.inl h5
      · have := hup e; exact Or.inr (show m ≤ upd s.seq c q e by omega)
    | batch nx av =>
      refine ⟨hp.1, hp.2.1, hp.2.2.1, fun e he => ?_⟩
      have := hp.2.2.2 e he; have := hup e; show av ≤ upd s.seq c q e; omega
    | handle nx av =>
      refine ⟨hp.1, hp.2.1, hp.2.2.1, fun e he => ?_⟩
      have := hp.2.2.2 e he; have := hup e; show av ≤ upd s.seq c q e; omega
  refine { h with seq_ge := ?_, seq_le := ?_, seq_dep := ?_, cached_seq := ?_, over := ?_, prod := ?_, cons := ?_, hist := ?_ }
  · intro p; have := h.seq_ge p; have := hup p; show -1 ≤ upd s.seq c q p; omega
  · intro p; show upd s.seq c q p ≤ s.cursor
    by_cases e : p = c
    · subst e; rw [upd_same]; exact h1
    · rw [upd_other _ _ e]; exact h.seq_le p
  · intro p d hd; show upd s.seq c q p ≤ upd s.seq c q d
    by_cases e : p = c
    · subst e; rw [upd_same]; have := h2 d hd; have := hup d; omega
    · rw [upd_other _ _ e]; have := h.seq_dep p d hd; have := hup d; omega
  · intro d hd; have := h.cached_seq d hd; have := hup d; show s.cached ≤ upd s.seq c q d; omega
  · intro d hd; have := h.over d hd; have := hup d; show s.nextVal ≤ upd s.seq c q d + 2 ^ cfg.k; omega
  · have hp := h.prod
    show PInv _ s.pp
    cases e : s.pp with
    | idle => trivial
    | nScan n rest m =>
      rw [e] at hp
      refine ⟨hp.1, hp.2.1, fun d hd => ?_⟩
      rcases hp.2.2 d hd with h5 | h5
      · exact Or.inl h5
      · have := hup d; exact Or.inr (show m ≤ upd s.seq c q d by omega)
    | tScan n rest m =>
      rw [e] at hp
      refine ⟨hp.1, hp.2.1, fun d hd => ?_⟩
      rcases hp.2.2 d hd with h5 | h5
      · exact Or.inl h5
      · have := hup d; exact Or.inr (show m ≤ upd s.seq c q d by omega)
  · intro p
    show CInv cfg _ p (upd s.seq c q p) (upd s.cp c pc p)
    by_cases e : p = c
    · subst e; rw [upd_same, upd_same]; exact hcg _ _ _ h3
    · rw [upd_other _ _ e, upd_other _ _ e]; exact hcg _ _ _ (h.cons p)
  · intro p
    by_cases e : p = c
    · subst e; exact h4
    · have := h.hist p
      simpa [HInv, upd_other _ _ e] using this

theorem upd_self {α β : Type _} [DecidableEq α] (f : α → β) (a : α) : upd f a (f a) = f := by
  funext x; by_cases e : x = a
  · subst e; simp
  · rw [upd_other _ _ e]

theorem late_mono {cfg : Cfg} {s s' : St V} {a : Act V} (hs : step cfg s a = some s') (hl : s'.late = false) : s.late = false := by
  cases a <;> simp only [Chain.step, Chain.look, Chain.pstep, claim] at hs <;> (repeat' split at hs) <;> (try cases hs) <;>
    first | exact hl | (simp only [Bool.or_eq_false_iff] at hl; exact hl.1.1)

/-- Moves of a processor that leave its sequence and its history alone. -/
theorem Inv.setCp {cfg : Cfg} {s : St V} (h : Inv cfg s) (c : Nat) (pc : CPc) (h3 : CInv cfg s c (s.seq c) pc)
    (hpos : pc.pos (s.seq c) = (s.cp c).pos (s.seq c)) (h5 : ∀ nx av, pc ≠ .handle nx av) (h6 : ∀ nx av, s.cp c ≠ .handle nx av) :
    Inv cfg { s with cp := upd s.cp c pc } := by
  have hh := h.hist c
  have := h.consStep c (s.seq c) pc (s.started c) (s.ended c) (Int.le_refl _) (h.seq_le c) (h.seq_dep c) h3 (by
    unfold HInv at hh ⊢
    simp only [upd_same]
    split
    · rename_i hn; rw [if_pos hn] at hh; exact ⟨hh.1, hh.2.1, h5⟩
    · rename_i hn; rw [if_neg hn] at hh
      refine ⟨by rw [hpos]; exact hh.1, ?_⟩
      have e1 : s.started c = s.ended c := by
        have h2 := hh.2
        cases e : s.cp c <;> simp only [e] at h2
        · exact h2
        · exact h2
        · exact h2
        · exact h2
        · exact absurd e (h6 _ _)
      cases pc <;> exact e1)
  simpa only [upd_self] using this

theorem Inv.look {cfg : Cfg} {s s' : St V} {c : Nat} (h : Inv cfg s) (hs : Chain.look cfg s c = some s') : Inv cfg s' := by
  have hc := h.cons c
  unfold Chain.look at hs
  split at hs
  · rename_i nx e
    rw [e] at hc
    have h6 : ∀ nx av, s.cp c ≠ .handle nx av := by rw [e]; nofun
    split at hs
    · rename_i hd
      split at hs <;> cases hs
      · exact h
      · refine h.setCp c _ ⟨by have : nx = s.seq c + 1 := hc; omega, by omega, Int.le_refl _, by rw [hd]; nofun⟩ (by rw [e]; rfl)
          nofun h6
    · rename_i d ds hd
      cases hs
      refine h.setCp c _ ⟨hc, by rw [hd]; simp, fun x hx => Or.inl (by rw [hd] at hx; exact hx)⟩ (by rw [e]; rfl) nofun h6
  · rename_i nx d ds m e
    rw [e] at hc
    have h6 : ∀ nx av, s.cp c ≠ .handle nx av := by rw [e]; nofun
    cases hs
    refine h.setCp c _ ⟨hc.1, hc.2.1, fun x hx => ?_⟩ (by rw [e]; rfl) nofun h6
    rcases hc.2.2 x hx with h1 | h1
    · rcases List.mem_cons.mp h1 with h2 | h2
      · subst h2; right; split <;> omega
      · exact Or.inl h2
    · right; split <;> omega
  · rename_i nx m e
    rw [e] at hc
    have h6 : ∀ nx av, s.cp c ≠ .handle nx av := by rw [e]; nofun
    split at hs <;> cases hs
    · exact h.setCp c _ hc.1 (by rw [e]; rfl) nofun h6
    · have hm : ∀ d ∈ cfg.deps c, m ≤ s.seq d := fun d hd => by simpa using hc.2.2 d hd
      have hcur : m ≤ s.cursor := by
        obtain ⟨d, hd⟩ := List.exists_mem_of_ne_nil _ hc.2.1
        have := hm d hd; have := h.seq_le d; omega
      exact h.setCp c _ ⟨by have : nx = s.seq c + 1 := hc.1; omega, by omega, hcur, hm⟩ (by rw [e]; rfl) nofun h6
  · cases hs

theorem Inv.step {cfg : Cfg} (hk : cfg.k ≤ 30) {s s' : St V} {a : Act V} (h : Inv cfg s) (hl : s'.late = false)
    (hs : step cfg s a = some s') : Inv cfg s' := by
  cases a with
  | callNext n =>
    simp only [Chain.step] at hs
    split at hs
    · rename_i hc
      exact h.call (pc := .nScan n s.gating s.nextVal) hc.2 ⟨hc.2, Int.le_refl _, fun c hc => Or.inl hc⟩ hs
    · cases hs
  | callTry n =>
    simp only [Chain.step] at hs
    split at hs
    · rename_i hc
      exact h.call (pc := .tScan n s.gating s.nextVal) hc.2 ⟨hc.2, Int.le_refl _, fun c hc => Or.inl hc⟩ hs
    · cases hs
  | pstep => exact h.pstep hs
  | write x v =>
    simp only [Chain.step] at hs
    split at hs <;> cases hs
    rename_i hx
    refine { h with slot_pub := ?_, prod := ?_, cons := ?_ }
    · intro y h1 h2 h3
      have h1 : s.nextVal < y + 2 ^ cfg.k := h1
      have h3 : y ≤ s.cursor := h3
      show s.pub y = some (upd s.slot (slotIdx cfg.k x) v (slotIdx cfg.k y))
      rw [upd_other _ _ (slot_ne hk (by omega) (by omega))]
      exact h.slot_pub y h1 h2 h3
    · have := h.prod; show PInv _ s.pp; cases e : s.pp <;> simp only [e] at this <;> exact this
    · intro c; have := h.cons c; show CInv cfg _ c (s.seq c) (s.cp c); cases e : s.cp c <;> simp only [e] at this <;> exact this
  | publish x =>
    simp only [Chain.step] at hs
    split at hs <;> cases hs
    rename_i hx
    have hcl := h.cur_le
    have hcg := h.cur_ge
    refine { h with cur_ge := ?_, cur_le := hx.2, seq_le := ?_, pub_none := ?_, slot_pub := ?_, prod := ?_, cons := ?_ }
    · show -1 ≤ x; omega
    · intro p; have := h.seq_le p; show s.seq p ≤ x; omega
    · intro y hy
      have hy : x < y := hy
      show (if s.cursor < y ∧ y ≤ x then some (s.slot (slotIdx cfg.k y)) else s.pub y) = none
      rw [if_neg (by omega)]; exact h.pub_none y (by omega)
    · intro y h1 h2 h3
      have h3 : y ≤ x := h3
      show (if s.cursor < y ∧ y ≤ x then some (s.slot (slotIdx cfg.k y)) else s.pub y) = _
      split
      · rfl
      · exact h.slot_pub y h1 h2 (by omega)
    · have := h.prod; show PInv _ s.pp; cases e : s.pp <;> simp only [e] at this <;> exact this
    · intro c; have := h.cons c; show CInv cfg _ c (s.seq c) (s.cp c)
      cases e : s.cp c <;> simp only [e] at this
      · trivial
      · exact this
      · exact this
      · exact ⟨this.1, this.2.1, by have := this.2.2.1; show _ ≤ x; omega, this.2.2.2⟩
      · exact ⟨this.1, this.2.1, by have := this.2.2.1; show _ ≤ x; omega, this.2.2.2⟩
  | addGating c =>
    simp only [Chain.step] at hs
    cases hs
    simp only [Bool.or_eq_false_iff, decide_eq_false_iff_not, Decidable.not_not] at hl
    obtain ⟨⟨_, hn⟩, hpi⟩ := hl
    have hcg := h.cur_ge
    have hcl := h.cur_le
    have hcur : s.cursor = -1 := by omega
    have e : upd s.seq c s.cursor = s.seq := by
      have h1 := h.seq_ge c; have h2 := h.seq_le c
      have : s.cursor = s.seq c := by omega
      rw [this]; exact upd_self _ _
    simp only [e]
    have hg : ∀ p, -1 ≤ s.seq p := h.seq_ge
    have hp : (0 : Int) < 2 ^ cfg.k := Int.pow_pos (by decide)
    have hch := h.cached_le
    refine { h with cached_seq := ?_, over := ?_, prod := ?_, cons := ?_ }
    · intro p _; have := hg p; show s.cached ≤ s.seq p; omega
    · intro p _; have := hg p; show s.nextVal ≤ s.seq p + 2 ^ cfg.k; omega
    · show PInv _ s.pp; rw [hpi]; trivial
    · intro c; have := h.cons c; show CInv cfg _ c (s.seq c) (s.cp c); cases e : s.cp c <;> simp only [e] at this <;> exact this
  | removeGating c =>
    simp only [Chain.step] at hs
    cases hs
    have sub : ∀ d ∈ s.gating.filter (fun d => decide (d ≠ c)), d ∈ s.gating := fun d hd => (List.mem_filter.mp hd).1
    refine { h with cached_seq := ?_, over := ?_, prod := ?_, cons := ?_ }
    · exact fun d hd => h.cached_seq d (sub d hd)
    · exact fun d hd => h.over d (sub d hd)
    · have hp := h.prod
      show PInv _ s.pp
      cases e : s.pp with
      | idle => trivial
      | nScan n rest m => rw [e] at hp; exact ⟨hp.1, hp.2.1, fun d hd => hp.2.2 d (sub d hd)⟩
      | tScan n rest m => rw [e] at hp; exact ⟨hp.1, hp.2.1, fun d hd => hp.2.2 d (sub d hd)⟩
    · intro c; have := h.cons c; show CInv cfg _ c (s.seq c) (s.cp c); cases e : s.cp c <;> simp only [e] at this <;> exact this
  | run c =>
    simp only [Chain.step] at hs
    split at hs <;> cases hs
    rename_i e
    exact h.setCp c _ rfl (by rw [e]; rfl) nofun (by rw [e]; nofun)
  | look c => exact h.look hs
  | advance c =>
    simp only [Chain.step] at hs
    split at hs
    · rename_i nx av e
      have hc := h.cons c
      have hh := h.hist c
      rw [e] at hc
      unfold HInv at hh
      split at hs
      · rename_i hn
        cases hs
        rw [if_pos hn] at hh
        have := h.consStep c av (.wait (av + 1)) (s.started c) (s.ended c) (by have := hc.1; have := hc.2.1; omega) hc.2.2.1 hc.2.2.2 rfl
          (by unfold HInv; rw [if_pos hn]; simp only [upd_same]; exact ⟨hh.1, hh.2.1, nofun⟩)
        simpa only [upd_self] using this
      · rename_i hn
        rw [if_neg hn] at hh
        simp only [e, CPc.pos] at hh
        split at hs <;> cases hs
        · rename_i hle
          have := h.consStep c (s.seq c) (.handle nx av) (nx :: s.started c) (s.ended c) (Int.le_refl _) (h.seq_le c) (h.seq_dep c)
            ⟨hc.1, hle, hc.2.2⟩
            (by unfold HInv; rw [if_neg hn]; simp only [upd_same, CPc.pos]; exact ⟨hh.1, by rw [hh.2]⟩)
          simpa only [upd_self] using this
        · rename_i hle
          have hnx : nx = av + 1 := by have := hc.2.1; omega
          have := h.consStep c av (.wait nx) (s.started c) (s.ended c) (by have := hc.1; omega) hc.2.2.1 hc.2.2.2 hnx
            (by unfold HInv; rw [if_neg hn]; simp only [upd_same, CPc.pos]; exact hh)
          simpa only [upd_self] using this
    · cases hs
  | finish c =>
    simp only [Chain.step] at hs
    split at hs
    · rename_i nx av e
      cases hs
      have hc := h.cons c
      have hh := h.hist c
      rw [e] at hc
      unfold HInv at hh
      by_cases hn : cfg.noop c
      · rw [if_pos hn] at hh; exact absurd e (hh.2.2 _ _)
      · rw [if_neg hn] at hh
        simp only [e, CPc.pos] at hh
        have h0 : 0 ≤ nx := by have := hc.1; have := h.seq_ge c; omega
        have := h.consStep c (s.seq c) (.batch (nx + 1) av) (s.started c) (nx :: s.ended c) (Int.le_refl _) (h.seq_le c)
          (h.seq_dep c) ⟨by have := hc.1; omega, by have := hc.2.1; omega, hc.2.2⟩
          (by
            unfold HInv; rw [if_neg hn]; simp only [upd_same, CPc.pos]
            refine ⟨?_, hh.2⟩
            rw [show (nx + 1).toNat = nx.toNat + 1 by omega, down, hh.1, Int.toNat_of_nonneg h0])
        simpa only [upd_self] using this
    · cases hs
  | throw c =>
    simp only [Chain.step] at hs
    split at hs
    · rename_i nx av e
      cases hs
      have hc := h.cons c
      have hh := h.hist c
      rw [e] at hc
      unfold HInv at hh
      by_cases hn : cfg.noop c
      · rw [if_pos hn] at hh; exact absurd e (hh.2.2 _ _)
      · rw [if_neg hn] at hh
        simp only [e, CPc.pos] at hh
        have h0 : 0 ≤ nx := by have := hc.1; have := h.seq_ge c; omega
        have h1 := hc.1
        have h2 := hc.2.1
        have h3 := hc.2.2.1
        have := h.consStep c nx (.wait (nx + 1)) (s.started c) (nx :: s.ended c) (by omega) (by omega)
          (fun d hd => by have := hc.2.2.2 d hd; omega) rfl
          (by
            unfold HInv; rw [if_neg hn]; simp only [upd_same, CPc.pos]
            refine ⟨?_, hh.2⟩
            rw [show (nx + 1).toNat = nx.toNat + 1 by omega, down, hh.1, Int.toNat_of_nonneg h0])
        simpa only [upd_self] using this
    · cases hs
  | leave c =>
    simp only [Chain.step] at hs
    have hc := h.cons c
    split at hs <;> cases hs <;> rename_i e <;> rw [e] at hc
    · exact h.setCp c _ trivial (by rw [e]; exact hc.symm) nofun (by rw [e]; nofun)
    · exact h.setCp c _ trivial (by rw [e]; exact hc.1.symm) nofun (by rw [e]; nofun)

theorem Reach.inv {cfg : Cfg} (hk : cfg.k ≤ 30) {v : V} {s : St V} (h : Reach cfg v s) (hl : s.late = false) : Inv cfg s := by
  induction h with
  | init => exact Inv.init cfg v
  | step hr hs ih => exact (ih (late_mono hs hl)).step hk hl hs

end Verif.Chain

/-! Progress. -/

namespace Verif.Chain
open Verif Verif.Disr

variable {V : Type}

/-- Steps of processor `p` itself while it is in `run`. -/
def Own (p : Nat) (a : Act V) : Prop := a = .look p ∨ a = .advance p ∨ a = .finish p

/-- `s'` differs from `s` in what belongs to processor `p` only. -/
structure Loc (p : Nat) (s s' : St V) : Prop where
  cursor : s'.cursor = s.cursor
  late : s'.late = s.late
  seq : ∀ q, q ≠ p → s'.seq q = s.seq q
  cp : ∀ q, q ≠ p → s'.cp q = s.cp q

theorem Loc.refl (p : Nat) (s : St V) : Loc p s s := ⟨rfl, rfl, fun _ _ => rfl, fun _ _ => rfl⟩

theorem Loc.trans {p : Nat} {s t u : St V} (h : Loc p s t) (h' : Loc p t u) : Loc p s u :=
  ⟨h'.1.trans h.1, h'.2.trans h.2, fun q hq => (h'.3 q hq).trans (h.3 q hq), fun q hq => (h'.4 q hq).trans (h.4 q hq)⟩

/-- Steps of `p` lead from `s` to `s'`. -/
inductive OwnRun (cfg : Cfg) (p : Nat) : St V → St V → Prop where
  | refl {s} : OwnRun cfg p s s
  | step {s t u a} : Own p a → step cfg s a = some t → Loc p s t → OwnRun cfg p t u → OwnRun cfg p s u

theorem OwnRun.trans {cfg : Cfg} {p : Nat} {s t u : St V} (h : OwnRun cfg p s t) (h' : OwnRun cfg p t u) : OwnRun cfg p s u := by
  induction h with
  | refl => exact h'
  | step ho hs hl _ ih => exact .step ho hs hl (ih h')

theorem OwnRun.loc {cfg : Cfg} {p : Nat} {s t : St V} (h : OwnRun cfg p s t) : Loc p s t := by
  induction h with
  | refl => exact Loc.refl _ _
  | step _ _ hl _ ih => exact hl.trans ih

theorem OwnRun.reach {cfg : Cfg} {p : Nat} {v : V} {s t : St V} (h : OwnRun cfg p s t) (hr : Reach cfg v s) : Reach cfg v t := by
  induction h with
  | refl => exact hr
  | step _ hs _ _ ih => exact ih (.step hr hs)

theorem OwnRun.one {cfg : Cfg} {p : Nat} {s t : St V} {a : Act V} (ho : Own p a) (hs : Chain.step cfg s a = some t) (hl : Loc p s t) :
    OwnRun cfg p s t := .step ho hs hl .refl

theorem run_append (cfg : Cfg) (s : St V) (as bs : List (Act V)) :
    run cfg s (as ++ bs) = (run cfg s as).bind (fun t => run cfg t bs) := by
  induction as generalizing s with
  | nil => rfl
  | cons a as ih =>
    simp only [List.cons_append, run]
    cases step cfg s a <;> simp [ih]

theorem OwnRun.run {cfg : Cfg} {p : Nat} {s t : St V} (h : OwnRun cfg p s t) :
    ∃ as, (∀ a ∈ as, Own p a) ∧ Chain.run cfg s as = some t := by
  induction h with
  | refl => exact ⟨[], nofun, rfl⟩
  | step ho hs _ _ ih =>
    obtain ⟨as, h1, h2⟩ := ih
    refine ⟨_ :: as, fun a ha => ?_, by rw [Chain.run, hs]; exact h2⟩
    rcases List.mem_cons.mp ha with e | e
    · subst e; exact ho
    · exact h1 a e

theorem locUpd (p : Nat) (s : St V) (q : Nat → Int) (hq : ∀ x, x ≠ p → q x = s.seq x) (pc : CPc) (st en : Nat → List Int) :
    Loc p s { s with seq := q, cp := upd s.cp p pc, started := st, ended := en } :=
  ⟨rfl, rfl, hq, fun x hx => upd_other _ _ hx⟩

theorem batch_end {cfg : Cfg} {p : Nat} (n : Nat) : ∀ (s : St V) (nx av : Int), s.cp p = .batch nx av → nx ≤ av + 1 →
    (av + 1 - nx).toNat = n → ∃ t, OwnRun cfg p s t ∧ t.cp p = .wait (av + 1) ∧ t.seq p = av := by
  induction n with
  | zero =>
    intro s nx av e h1 h2
    have hnx : nx = av + 1 := by omega
    refine ⟨{ s with seq := upd s.seq p av, cp := upd s.cp p (.wait (av + 1)) }, ?_, by simp, by simp⟩
    refine OwnRun.one (a := .advance p) (Or.inr (Or.inl rfl)) ?_ (locUpd p s _ (fun x hx => upd_other _ _ hx) _ _ _)
    simp only [Chain.step, e]
    split
    · rfl
    · rw [if_neg (by omega), hnx]
  | succ n ih =>
    intro s nx av e h1 h2
    by_cases hn : cfg.noop p
    · refine ⟨{ s with seq := upd s.seq p av, cp := upd s.cp p (.wait (av + 1)) }, ?_, by simp, by simp⟩
      refine OwnRun.one (a := .advance p) (Or.inr (Or.inl rfl)) ?_ (locUpd p s _ (fun x hx => upd_other _ _ hx) _ _ _)
      simp only [Chain.step, e, hn, if_pos]
    · let s1 : St V := { s with cp := upd s.cp p (.handle nx av), started := upd s.started p (nx :: s.started p) }
      let s2 : St V := { s1 with cp := upd s1.cp p (.batch (nx + 1) av), ended := upd s1.ended p (nx :: s1.ended p) }
      obtain ⟨t, h3, h4, h5⟩ := ih s2 (nx + 1) av (by simp [s2]) (by omega) (by omega)
      refine ⟨t, .step (a := .advance p) (t := s1) (Or.inr (Or.inl rfl)) ?_ (locUpd p s s.seq (fun x _ => rfl) _ _ _)
        (.step (a := .finish p) (t := s2) (Or.inr (Or.inr rfl)) ?_ (locUpd p s1 s1.seq (fun x _ => rfl) _ _ _) h3), h4, h5⟩
      · simp only [Chain.step, e, if_neg hn]
        rw [if_pos (by omega)]
      · simp only [Chain.step, s1, upd_same, s2]

/-- The end of a scan: the answer is what is left to read and the minimum so far. -/
theorem scan_end {cfg : Cfg} {p : Nat} (rest : List Nat) : ∀ (s : St V) (nx m : Int), s.cp p = .scan nx rest m →
    ∃ t m', OwnRun cfg p s t ∧ t.seq p = s.seq p ∧ (t.cp p = .wait nx ∧ m' < nx ∨ t.cp p = .batch nx m' ∧ nx ≤ m') ∧
      (m' = m ∨ ∃ d ∈ rest, m' = s.seq d) ∧ m' ≤ m ∧ ∀ d ∈ rest, m' ≤ s.seq d := by
  induction rest with
  | nil =>
    intro s nx m e
    by_cases h : m < nx
    · refine ⟨{ s with cp := upd s.cp p (.wait nx) }, m, OwnRun.one (a := .look p) (Or.inl rfl) ?_ (locUpd p s s.seq (fun x _ => rfl) _ _ _),
        rfl, Or.inl ⟨by simp, h⟩, Or.inl rfl, Int.le_refl _, nofun⟩
      simp only [Chain.step, Chain.look, e, if_pos h]
    · refine ⟨{ s with cp := upd s.cp p (.batch nx m) }, m, OwnRun.one (a := .look p) (Or.inl rfl) ?_ (locUpd p s s.seq (fun x _ => rfl) _ _ _),
        rfl, Or.inr ⟨by simp, by omega⟩, Or.inl rfl, Int.le_refl _, nofun⟩
      simp only [Chain.step, Chain.look, e, if_neg h]
  | cons d ds ih =>
    intro s nx m e
    let s1 : St V := { s with cp := upd s.cp p (.scan nx ds (if s.seq d < m then s.seq d else m)) }
    obtain ⟨t, m', h1, h2, h3, h4, h5, h6⟩ := ih s1 nx (if s.seq d < m then s.seq d else m) (by simp [s1])
    have h5' : m' ≤ m ∧ m' ≤ s.seq d := by split at h5 <;> omega
    refine ⟨t, m', .step (a := .look p) (t := s1) (Or.inl rfl) ?_ (locUpd p s s.seq (fun x _ => rfl) _ _ _) h1, h2, h3, ?_, h5'.1, ?_⟩
    · simp only [Chain.step, Chain.look, e, s1]
    · rcases h4 with h4 | ⟨x, hx, h4⟩
      · split at h4
        · exact Or.inr ⟨d, by simp, h4⟩
        · exact Or.inl h4
      · exact Or.inr ⟨x, by simp [hx], h4⟩
    · intro x hx
      rcases List.mem_cons.mp hx with e | e
      · subst e; exact h5'.2
      · exact h6 x e

/-- A running processor can always come back to waiting. -/
theorem to_wait {cfg : Cfg} {p : Nat} {s : St V} (h : Inv cfg s) (hr : s.cp p ≠ .idle) :
    ∃ t nx, OwnRun cfg p s t ∧ t.cp p = .wait nx ∧ nx = t.seq p + 1 := by
  have hc := h.cons p
  cases e : s.cp p with
  | idle => exact absurd e hr
  | wait nx => rw [e] at hc; exact ⟨s, nx, .refl, e, hc⟩
  | scan nx rest m =>
    rw [e] at hc
    obtain ⟨t, m', h1, h2, h3, _⟩ := scan_end rest s nx m e
    rcases h3 with ⟨h3, _⟩ | ⟨h3, h4⟩
    · exact ⟨t, nx, h1, h3, by rw [h2]; exact hc.1⟩
    · obtain ⟨u, g1, g2, g3⟩ := batch_end (cfg := cfg) (p := p) _ t nx m' h3 (by omega) rfl
      exact ⟨u, _, h1.trans g1, g2, by rw [g3]⟩
  | batch nx av =>
    rw [e] at hc
    obtain ⟨u, g1, g2, g3⟩ := batch_end (cfg := cfg) (p := p) _ s nx av e hc.2.1 rfl
    exact ⟨u, _, g1, g2, by rw [g3]⟩
  | handle nx av =>
    rw [e] at hc
    let s2 : St V := { s with cp := upd s.cp p (.batch (nx + 1) av), ended := upd s.ended p (nx :: s.ended p) }
    obtain ⟨u, g1, g2, g3⟩ := batch_end (cfg := cfg) (p := p) _ s2 (nx + 1) av (by simp [s2]) (by have := hc.2.1; omega) rfl
    refine ⟨u, _, .step (a := .finish p) (t := s2) (Or.inr (Or.inr rfl)) ?_ (locUpd p s s.seq (fun x _ => rfl) _ _ _) g1, g2, by rw [g3]⟩
    simp only [Chain.step, e, s2]

/-- A running processor whose dependencies are at the cursor can get to the cursor. -/
theorem drain {cfg : Cfg} (hk : cfg.k ≤ 30) {v : V} {p : Nat} {s : St V} (hrs : Reach cfg v s) (hl : s.late = false) (hr : s.cp p ≠ .idle)
    (hself : p ∉ cfg.deps p) (hd : ∀ d ∈ cfg.deps p, s.seq d = s.cursor) (hm : s.cursor ≤ llmax) :
    ∃ t, OwnRun cfg p s t ∧ t.cp p = .wait (s.cursor + 1) ∧ t.seq p = s.cursor := by
  obtain ⟨t, nx, h1, h2, h3⟩ := to_wait (hrs.inv hk hl) hr
  have lt := h1.loc
  have hit : Inv cfg t := (h1.reach hrs).inv hk (by rw [lt.late]; exact hl)
  have hdt : ∀ d ∈ cfg.deps p, t.seq d = s.cursor := fun d hd' => by
    rw [lt.seq d (by intro e; subst e; exact hself hd')]; exact hd d hd'
  have hle := hit.seq_le p
  rw [lt.cursor] at hle
  by_cases hend : t.seq p = s.cursor
  · exact ⟨t, h1, by rw [h2, h3, hend], hend⟩
  · cases hds : cfg.deps p with
    | nil =>
      let t1 : St V := { t with cp := upd t.cp p (.batch nx t.cursor) }
      obtain ⟨u, g1, g2, g3⟩ := batch_end (cfg := cfg) (p := p) _ t1 nx t.cursor (by simp [t1]) (by rw [lt.cursor]; omega) rfl
      refine ⟨u, h1.trans (.step (a := .look p) (t := t1) (Or.inl rfl) ?_ (locUpd p t t.seq (fun x _ => rfl) _ _ _) g1), ?_, ?_⟩
      · simp only [Chain.step, Chain.look, h2, hds, t1]
        rw [if_neg (by rw [lt.cursor]; omega)]
      · rw [g2, lt.cursor]
      · rw [g3, lt.cursor]
    | cons d ds =>
      let t1 : St V := { t with cp := upd t.cp p (.scan nx (d :: ds) llmax) }
      obtain ⟨u, m', g1, g2, g3, g4, g5, g6⟩ := scan_end (cfg := cfg) (p := p) (d :: ds) t1 nx llmax (by simp [t1])
      have hm' : m' = s.cursor := by
        have := g6 d (by simp)
        have e1 : t1.seq d = s.cursor := hdt d (by rw [hds]; simp)
        rcases g4 with g4 | ⟨x, hx, g4⟩
        · omega
        · rw [g4]; exact hdt x (by rw [hds]; exact hx)
      have g3 : u.cp p = .batch nx s.cursor := by
        rcases g3 with ⟨_, g⟩ | ⟨g, _⟩
        · omega
        · rw [g, hm']
      obtain ⟨w, k1, k2, k3⟩ := batch_end (cfg := cfg) (p := p) _ u nx s.cursor g3 (by omega) rfl
      refine ⟨w, h1.trans (.step (a := .look p) (t := t1) (Or.inl rfl) ?_ (locUpd p t t.seq (fun x _ => rfl) _ _ _) (g1.trans k1)), k2, k3⟩
      simp only [Chain.step, Chain.look, h2, hds, t1]

end Verif.Chain
