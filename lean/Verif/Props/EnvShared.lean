import Verif.Props.Env

/-! C41, further: what holds of shared environments whatever happens (concurrent writes included), and how a group that has diverged becomes equal again. -/

namespace Verif.Env

/-- Every message on the way was sent by a connected peer, with its key and its id. -/
def Sane (n : Net) : Prop := ∀ s q, ∀ m ∈ n.chan s q, s < n.count ∧ m.key = (n.peer s).key ∧ m.src = (n.peer s).src

theorem sane_setEnv {n : Net} (h : Sane n) (p : Nat) (e : CEnv) : Sane (setEnv n p e) := by
  intro s q m hm
  rw [(setEnv_static n p e s).1, (setEnv_static n p e s).2]
  exact h s q m hm

theorem sane_publish {n : Net} (h : Sane n) {p : Nat} (hp : p < n.count) (e : CEnv) : Sane (zPublish n p e) := by
  intro s q m hm
  simp only [zPublish] at hm
  split at hm
  · next hs =>
    obtain ⟨rfl, -⟩ := hs
    rcases List.mem_append.mp hm with hm | hm
    · exact h s q m hm
    · simp only [List.mem_singleton] at hm; subst hm; exact ⟨hp, rfl, rfl⟩
  · exact h s q m hm

theorem poll_chan (n : Net) (p s s' q : Nat) : ∀ m ∈ (zPoll n p s).chan s' q, m ∈ n.chan s' q := by
  intro m hm
  exact (C41_no_echo n p s s' q).mem hm

theorem sane_step {n : Net} (h : Sane n) {op : ZOp} (hc : Connected n.count [op]) : Sane (zStep n op) := by
  have hc := hc op List.mem_cons_self
  cases op with
  | set p k key v root =>
    simp only [zStep, zSet_eq]
    exact sane_publish (sane_setEnv h p _) hc _
  | load p f root =>
    simp only [zStep, zLoad_eq]
    split
    · exact sane_publish (sane_setEnv h p _) hc _
    · exact sane_setEnv h p _
  | poll p s =>
    intro s' q m hm
    have hst := zStep_static n (.poll p s) s'
    rw [hst.1, hst.2.1, hst.2.2]
    exact h s' q m (poll_chan n p s s' q m hm)

theorem count_run (ops : List ZOp) : ∀ n : Net, (zRun n ops).count = n.count := by
  induction ops with
  | nil => intro n; rfl
  | cons op ops ih => intro n; exact (ih (zStep n op)).trans (zStep_static n op 0).1

theorem inG_run (K : String) (ops : List ZOp) : ∀ (n : Net) (q : Nat), InG K (zRun n ops) q ↔ InG K n q := by
  induction ops with
  | nil => intro n q; exact Iff.rfl
  | cons op ops ih => intro n q; exact (ih (zStep n op) q).trans (inG_step K n op q)

theorem distinct_run {K : String} (ops : List ZOp) : ∀ {n : Net}, Distinct K n → Distinct K (zRun n ops) := by
  induction ops with
  | nil => intro n h; exact h
  | cons op ops ih => intro n h; exact ih (distinct_step h op)

theorem sane_run (ops : List ZOp) : ∀ {n : Net}, Sane n → Connected n.count ops → Sane (zRun n ops) := by
  induction ops with
  | nil => intro n h _; exact h
  | cons op ops ih =>
    intro n h hc
    refine ih (sane_step h fun o ho => hc o ?_) ?_
    · simp only [List.mem_singleton] at ho; simp [ho]
    · rw [(zStep_static n op 0).1]; exact fun o ho => hc o (List.mem_cons_of_mem _ ho)

/-! ### A group becomes equal again -/

/-- After any write of a member, made when no message of another member is on the way, the group is where that write puts it, however it was before. -/
theorem conv_fresh {K : String} {n : Net} (h : Sane n) {p : Nat} (hp : InG K n p) (hq : Quiet K n p) (e : CEnv) :
    Conv K (zPublish (setEnv n p e) p e) e p := by
  have hst := setEnv_static n p e
  have hg : ∀ q, InG K (zPublish (setEnv n p e) p e) q ↔ InG K n q := fun q => by
    simp only [InG, zPublish, (hst q).1]; exact Iff.rfl
  refine ⟨(hg p).mpr hp, ?_, sane_publish (sane_setEnv h p e) hp.1 e, ?_, ?_⟩
  · intro s hs hk q hkq
    simp only [zPublish, if_neg (fun x => hs x.1 : ¬ (s = p ∧ q < (setEnv n p e).count))]
    exact hq hp s hs ((hg s).mp hk) q ((hg q).mp hkq)
  · simp [zPublish, setEnv]
  · intro q _ hkq
    have : q < (setEnv n p e).count := ((hg q).mp hkq).1
    simp [zPublish, this]

/-- **C41**, a group that has diverged (by concurrent writes, files with duplicates, different contents from the start) becomes equal again: after any history, once
no message of another member is on the way, a single write of a member `p` puts all members to the environment of `p`; and the separated writes that follow are
adopted by all of them.  Only different ids are assumed.
Missing: that nothing written is lost, `C41_violation_concurrent`. -/
theorem C41_heals_partial (K : String) (n : Net) (hc : ∀ s q, n.chan s q = []) (hd : Distinct K n) (before : List ZOp) (hb : Connected n.count before)
    (p : Nat) (hp : InG K n p) (hquiet : Quiet K (zRun n before) p) (k : Kind) (key : String) (v : k.Val) (root : String)
    (after : List ZOp) (ha : Connected n.count after) (hdi : Disciplined K (zSet (zRun n before) p k key v root) after)
    (q : Nat) (hq : InG K n q) (hdel : ∀ s, InG K n s → (zRun n (before ++ .set p k key v root :: after)).chan s q = []) :
    ((zRun n (before ++ .set p k key v root :: after)).peer q).env =
      after.foldl (global K n) (cSet ((zRun n before).peer p).env k key v root) := by
  have hrun : zRun n (before ++ .set p k key v root :: after) = zRun (zSet (zRun n before) p k key v root) after := by
    simp [zRun, zStep]
  have hsane : Sane (zRun n before) := sane_run before (fun s q m hm => by rw [hc] at hm; cases hm) hb
  have hmem := fun q => (inG_run K before n q)
  have h0 := conv_fresh hsane ((hmem p).mpr hp) hquiet (cSet ((zRun n before).peer p).env k key v root)
  rw [← zSet_eq] at h0
  have hset : ∀ q, InG K (zSet (zRun n before) p k key v root) q ↔ InG K n q := fun q => (inG_step K (zRun n before) (.set p k key v root) q).trans (hmem q)
  have hdist : Distinct K (zSet (zRun n before) p k key v root) := distinct_step (distinct_run before hd) (.set p k key v root)
  have hcount : (zSet (zRun n before) p k key v root).count = n.count := count_run before n
  obtain ⟨c', h⟩ := conv_run after _ _ p hdist h0 (by rw [hcount]; exact ha) hdi
  have hglob : after.foldl (global K (zSet (zRun n before) p k key v root)) (cSet ((zRun n before).peer p).env k key v root) =
      after.foldl (global K n) (cSet ((zRun n before).peer p).env k key v root) := by
    congr 1
    funext g o
    cases o <;> simp only [global, hset]
  rw [hglob] at h
  rw [hrun] at hdel ⊢
  exact conv_self h q ((inG_run K after _ q).mpr ((hset q).mpr hq)) (fun s _ hs' => hdel s ((hset s).mp ((inG_run K after _ s).mp hs')))

/-! ### One writer -/

/-- Only `p` changes its environment, among the members of the group. -/
def Writer (K : String) (n : Net) (p : Nat) (op : ZOp) : Prop :=
  match op with
  | .set q _ _ _ _ => InG K n q → q = p
  | .load q _ _ => InG K n q → q = p
  | .poll _ _ => True

/-- The files it loads have only properties that are new when they are loaded. -/
def NewFiles (K : String) : Net → List ZOp → Prop
  | _, [] => True
  | n, op :: ops => (match op with
      | .load p f root => InG K n p → (cLoad (n.peer p).env f root).2 = true
      | _ => True) ∧ NewFiles K (zStep n op) ops

theorem single_disciplined {K : String} {p : Nat} (ops : List ZOp) : ∀ {n : Net}, (∀ s, s ≠ p → InG K n s → ∀ q, InG K n q → n.chan s q = []) →
    (∀ op ∈ ops, Writer K n p op) → NewFiles K n ops → Disciplined K n ops := by
  induction ops with
  | nil => intro n _ _ _; trivial
  | cons op ops ih =>
    intro n hn hw hf
    have hg := inG_step K n op
    have hwo := hw op List.mem_cons_self
    have hrest : ∀ s, s ≠ p → InG K (zStep n op) s → ∀ q, InG K (zStep n op) q → (zStep n op).chan s q = [] := by
      intro s hs hk q hq
      have h0 := hn s hs ((hg s).mp hk) q ((hg q).mp hq)
      cases op with
      | set r k key v root =>
        have hr : s ≠ r := by rintro rfl; exact hs (hwo ((hg _).mp hk))
        simp only [zStep, zSet, zPublish, if_neg (fun x => hr x.1 : ¬ (s = r ∧ q < n.count))]
        exact h0
      | load r f root =>
        have hr : s ≠ r := by rintro rfl; exact hs (hwo ((hg _).mp hk))
        simp only [zStep, zLoad]
        split
        · simp only [zPublish, if_neg (fun x => hr x.1 : ¬ (s = r ∧ q < n.count))]
          exact h0
        · exact h0
      | poll r t =>
        have := C41_no_echo n r t s q
        rw [h0] at this
        exact List.suffix_nil.mp this
    refine ⟨?_, ih hrest ?_ hf.2⟩
    · cases op with
      | set r k key v root => intro hr s hs hk q hq; exact hn s (by rw [← hwo hr]; exact hs) hk q hq
      | load r f root => exact ⟨fun hr s hs hk q hq => hn s (by rw [← hwo hr]; exact hs) hk q hq, hf.1⟩
      | poll r t => trivial
    · intro o ho
      have := hw o (List.mem_cons_of_mem _ ho)
      cases o <;> simp only [Writer, hg] at this ⊢ <;> exact this

/-- **C41**, one writer: if only one member of the group writes, as fast as it likes, every member to which everything has been delivered holds the environment of the
writer: all its writes in order.
Missing: more than one writer at a time, equal ids, files with duplicates (`C41_violation_*`). -/
theorem C41_one_writer_partial (K : String) (n : Net) (G : CEnv) (hs : ∀ q, InG K n q → (n.peer q).env = G) (hc : ∀ s q, n.chan s q = []) (hd : Distinct K n)
    (p : Nat) (ops : List ZOp) (hco : Connected n.count ops) (hw : ∀ op ∈ ops, Writer K n p op) (hf : NewFiles K n ops)
    (q : Nat) (hq : InG K n q) (hdel : ∀ s, InG K n s → (zRun n ops).chan s q = []) :
    ((zRun n ops).peer q).env = ops.foldl (global K n) G :=
  C41_converges_partial K n G hs hc hd ops hco (single_disciplined ops (fun s _ _ q _ => hc s q) hw hf) q hq hdel

/-! ### Whatever happens -/

/-- The members of the group and the messages for it satisfy `Φ`. -/
def AllG (K : String) (Φ : CEnv → Prop) (n : Net) : Prop :=
  (∀ q, InG K n q → Φ (n.peer q).env) ∧ ∀ s q, ∀ m ∈ n.chan s q, m.key = K → Φ m.data

/-- What a member does to its own environment. -/
def own (op : ZOp) (e : CEnv) : CEnv :=
  match op with
  | .set _ k key v root => cSet e k key v root
  | .load _ f root => (cLoad e f root).1
  | .poll _ _ => e

/-- The operation is a write of a member. -/
def ByMember (K : String) (n : Net) (op : ZOp) : Prop :=
  match op with
  | .set p _ _ _ _ => InG K n p
  | .load p _ _ => InG K n p
  | .poll _ _ => False

theorem allG_setEnv {K : String} {Φ : CEnv → Prop} {n : Net} (h : AllG K Φ n) (p : Nat) (e : CEnv) (he : InG K n p → Φ e) : AllG K Φ (setEnv n p e) := by
  have hg : ∀ q, InG K (setEnv n p e) q ↔ InG K n q := fun q => by simp only [InG, (setEnv_static n p e q).1]; exact Iff.rfl
  refine ⟨fun q hq => ?_, h.2⟩
  rw [hg] at hq
  by_cases hqp : q = p
  · subst hqp; simp [setEnv]; exact he hq
  · simp only [setEnv, upd_other _ _ hqp]; exact h.1 q hq

theorem allG_publish {K : String} {Φ : CEnv → Prop} {n : Net} (h : AllG K Φ n) {p : Nat} (hp : p < n.count) (e : CEnv) (he : InG K n p → Φ e) :
    AllG K Φ (zPublish n p e) := by
  refine ⟨h.1, fun s q m hm hk => ?_⟩
  simp only [zPublish] at hm
  split at hm
  · rcases List.mem_append.mp hm with hm | hm
    · exact h.2 s q m hm hk
    · simp only [List.mem_singleton] at hm; subst hm; exact he ⟨hp, hk⟩
  · exact h.2 s q m hm hk

theorem allG_step {K : String} {Φ : CEnv → Prop} {n : Net} (h : AllG K Φ n) {op : ZOp} (hc : Connected n.count [op])
    (hw : ByMember K n op → ∀ e, Φ e → Φ (own op e)) : AllG K Φ (zStep n op) := by
  have hc := hc op List.mem_cons_self
  cases op with
  | set p k key v root =>
    simp only [zStep, zSet_eq]
    have he : InG K n p → Φ (cSet (n.peer p).env k key v root) := fun hp => hw hp _ (h.1 p hp)
    refine allG_publish (allG_setEnv h p _ he) hc _ fun hp => he ?_
    exact ⟨hp.1, by rw [← (setEnv_static n p _ p).1]; exact hp.2⟩
  | load p f root =>
    simp only [zStep, zLoad_eq]
    have he : InG K n p → Φ (cLoad (n.peer p).env f root).1 := fun hp => hw hp _ (h.1 p hp)
    split
    · refine allG_publish (allG_setEnv h p _ he) hc _ fun hp => he ?_
      exact ⟨hp.1, by rw [← (setEnv_static n p _ p).1]; exact hp.2⟩
    · exact allG_setEnv h p _ he
  | poll p s =>
    refine ⟨fun q hq => ?_, fun s' q m hm hk => h.2 s' q m (poll_chan n p s s' q m hm) hk⟩
    have hq' : InG K n q := (inG_step K n (.poll p s) q).mp hq
    simp only [zStep, zPoll]
    split
    · exact h.1 q hq'
    · next m rest hm =>
      simp only []
      split
      · next hx =>
        by_cases hqp : q = p
        · subst hqp
          simp only [upd_same]
          exact h.2 s q m (by rw [hm]; exact List.mem_cons_self) (hx.1.trans hq'.2)
        · rw [upd_other _ _ hqp]; exact h.1 q hq'
      · exact h.1 q hq'

/-- **C41**, whatever happens (concurrent writes, any order of delivery, equal ids, files with duplicates): what holds of the members' environments in the beginning
and is kept by each write of a member holds of every member's environment at any time. -/
theorem C41_kept (K : String) (Φ : CEnv → Prop) (ops : List ZOp) : ∀ (n : Net), AllG K Φ n → Connected n.count ops →
    (∀ op ∈ ops, ByMember K n op → ∀ e, Φ e → Φ (own op e)) → AllG K Φ (zRun n ops) := by
  induction ops with
  | nil => intro n h _ _; exact h
  | cons op ops ih =>
    intro n h hc hw
    refine ih (zStep n op) (allG_step h ?_ (hw op List.mem_cons_self)) ?_ ?_
    · intro o ho; simp only [List.mem_singleton] at ho; exact hc o (by simp [ho])
    · rw [(zStep_static n op 0).1]; exact fun o ho => hc o (List.mem_cons_of_mem _ ho)
    · intro o ho hwo
      refine hw o (List.mem_cons_of_mem _ ho) ?_
      cases o <;> simp only [ByMember, inG_step] at hwo ⊢ <;> exact hwo

/-- **C41**, nothing is invented and nothing comes from another group: whatever happens, a property that a member reads was there in the beginning at some member, was
set by a member, or is in a file loaded by a member. -/
theorem C41_nothing_invented (K : String) (n : Net) (hc : ∀ s q, n.chan s q = []) (ops : List ZOp) (hco : Connected n.count ops)
    (hwf : ∀ p f root, .load p (some f) root ∈ ops → WF f) (q : Nat) (hq : InG K n q) (k : Kind) (key root : String) (v d : k.Val)
    (h : cGet ((zRun n ops).peer q).env k key d root = (v, true)) :
    (∃ p, InG K n p ∧ cGet (n.peer p).env k key d root = (v, true)) ∨
    (∃ p key' root', InG K n p ∧ .set p k key' v root' ∈ ops ∧ getFullKey key' root' = getFullKey key root) ∨
    (∃ p f key' root', InG K n p ∧ .load p (some f) root' ∈ ops ∧ getFullKey key' root' = getFullKey key root ∧ cGet f k key' d "" = (v, true)) := by
  refine (C41_kept K (fun e => cGet e k key d root = (v, true) → _) ops n ⟨fun q hq h => .inl ⟨q, hq, h⟩, fun s q m hm => by rw [hc] at hm; cases hm⟩ hco ?_).1 q
    ((inG_run K ops n q).mpr hq) h
  intro op hop hw e he hr
  cases op with
  | set p k' key' v' root' =>
    simp only [own] at hr
    rw [cGet_eq, read_eq_some, find_cSet] at hr
    split at hr
    · next hk =>
      subst hk
      split at hr
      · next hf =>
        simp only [Option.some.injEq] at hr
        subst hr
        exact .inr (.inl ⟨p, key', root', hw, hop, hf.symm⟩)
      · exact he (by rw [cGet_eq, read_eq_some]; exact hr)
    · exact he (by rw [cGet_eq, read_eq_some]; exact hr)
  | load p f root' =>
    cases f with
    | none => exact he hr
    | some o =>
      rcases C40_nothing_else e o (hwf p o root' hop) root' k key root v d hr with h | ⟨key', h1, h2⟩
      · exact he h
      · exact .inr (.inr ⟨p, o, key', root', hw, hop, h1, h2⟩)
  | poll _ _ => exact hw.elim

/-! ### Concrete cases -/

/-- `Quiet` can be tested: there are finitely many members. -/
theorem quiet_of {K : String} {n : Net} {p : Nat} (h : ∀ s < n.count, s ≠ p → (n.peer s).key = K → ∀ q < n.count, (n.peer q).key = K → (n.chan s q).isEmpty = true) :
    Quiet K n p := fun _ s hs hk q hq => List.isEmpty_iff.mp (h s hk.1 hs hk.2 q hq.1 hq.2)

/-- The concurrent writes of `C41_violation_concurrent`: the members differ. -/
def apart : List ZOp := [.set 0 .int "x" (1 : Int) "", .set 2 .int "y" (2 : Int) "", .poll 0 2, .poll 2 0, .poll 0 0, .poll 2 2]

/-- The hypotheses of `C41_heals_partial` are met after them; after one more write and its delivery both members read the same, the write of member 2 is there, that
of member 0 is lost. -/
theorem C41_heals_example :
    Distinct "a" demo ∧ Connected demo.count apart ∧ InG "a" demo 0 ∧ Quiet "a" (zRun demo apart) 0 ∧
    (∀ s, InG "a" demo s → (zRun demo (apart ++ [.set 0 .int "z" (3 : Int) "", .poll 2 0])).chan s 2 = []) ∧
    Disciplined "a" (zSet (zRun demo apart) 0 .int "z" (3 : Int) "") [.poll 2 0] ∧
    (let n := zRun demo (apart ++ [.set 0 .int "z" (3 : Int) "", .poll 2 0])
     cGet (n.peer 2).env .int "z" (0 : Int) "" = ((3 : Int), true) ∧ cGet (n.peer 2).env .int "y" (0 : Int) "" = ((2 : Int), true) ∧
     cGet (n.peer 2).env .int "x" (0 : Int) "" = ((0 : Int), false)) := by
  refine ⟨fun p q _ _ h => h, ?_, by decide +kernel, quiet_of (by decide +kernel), ?_, ⟨trivial, trivial⟩, by decide +kernel⟩
  · intro op hop
    simp only [apart, List.mem_cons, List.not_mem_nil, or_false] at hop
    rcases hop with rfl | rfl | rfl | rfl | rfl | rfl <;> simp [demo]
  · intro s hs
    have : ∀ s < 3, ((zRun demo (apart ++ [.set 0 .int "z" (3 : Int) "", .poll 2 0])).chan s 2).isEmpty = true := by decide +kernel
    exact List.isEmpty_iff.mp (this s hs.1)

/-- One writer that does not wait: the hypotheses of `C41_one_writer_partial` are met. -/
def fast : List ZOp :=
  [.set 0 .int "x" (1 : Int) "", .set 0 .int "x" (2 : Int) "", .poll 2 0, .load 0 (some (cSet .empty .string "s" "v" "")) "r", .poll 2 0, .set 0 .int "x" (3 : Int) "",
   .poll 2 0, .poll 2 0]

theorem C41_one_writer_example :
    Connected demo.count fast ∧ (∀ op ∈ fast, Writer "a" demo 0 op) ∧ NewFiles "a" demo fast ∧ (∀ s, InG "a" demo s → (zRun demo fast).chan s 2 = []) ∧
    cGet ((zRun demo fast).peer 2).env .int "x" (0 : Int) "" = ((3 : Int), true) ∧ cGet ((zRun demo fast).peer 2).env .string "s" "" "r" = ("v", true) := by
  refine ⟨?_, ?_, ⟨trivial, trivial, trivial, fun _ => by decide +kernel, trivial, trivial, trivial, trivial, trivial⟩, ?_, by decide +kernel, by decide +kernel⟩
  · intro op hop
    simp only [fast, List.mem_cons, List.not_mem_nil, or_false] at hop
    rcases hop with rfl | rfl | rfl | rfl | rfl | rfl | rfl | rfl <;> simp [demo]
  · intro op hop
    simp only [fast, List.mem_cons, List.not_mem_nil, or_false] at hop
    rcases hop with rfl | rfl | rfl | rfl | rfl | rfl | rfl | rfl <;> simp [Writer]
  · intro s hs
    have : ∀ s < 3, ((zRun demo fast).chan s 2).isEmpty = true := by decide +kernel
    exact List.isEmpty_iff.mp (this s hs.1)

/-- A file loaded by a member is read by the other (the third case of `C41_nothing_invented`), a write of another group is not read. -/
theorem C41_nothing_invented_example :
    cGet ((zRun demo (fast ++ [.set 1 .int "w" (7 : Int) "", .poll 2 1])).peer 2).env .string "s" "" "r" = ("v", true) ∧
    cGet ((zRun demo (fast ++ [.set 1 .int "w" (7 : Int) "", .poll 2 1])).peer 2).env .int "w" (0 : Int) "" = ((0 : Int), false) ∧
    WF (cSet .empty .string "s" "v" "") := ⟨by decide +kernel, by decide +kernel, wf_cSet wf_empty _ _ _ _⟩

end Verif.Env
