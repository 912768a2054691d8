import Verif.Model.ManagedService
import Verif.Props.Subscriber
import Mathlib.Order.Nat

/-! Properties of managed services (C47). -/

namespace Verif.Managed
open Verif

variable {σ κ : Type} [DecidableEq κ]

/-- Nothing registered, no service yet. -/
def St.new (sub : Sub.St σ κ) : St σ κ := ⟨sub, 0, fun _ => false, []⟩

/-! ### Generic part: an emitter that calls the registered callbacks in order -/

/-- `J sub names cbs`: the subscriber holds the callbacks `cbs`, registered under `names`. -/
structure Faithful (E : Sub.Emitter σ κ Nat Event) (ok : List κ → κ → Prop) (J : Sub.St σ κ → List κ → List Nat → Prop) : Prop where
  reg : ∀ s ns cs n c, J s ns cs → ok ns n → J (Sub.register E s n c) (ns ++ [n]) (cs ++ [c])
  emit : ∀ s ns cs e, J s ns cs → (E.emit s.em e).2 = cs.map (fun c => (c, e)) ∧
    J { s with em := (E.emit s.em e).1 } ns cs

def OkNames (ok : List κ → κ → Prop) : List κ → List κ → Prop
  | _, [] => True
  | ns, n :: rest => ok ns n ∧ OkNames ok (ns ++ [n]) rest

/-- Commands that come from the state `s` with slaves `cs`. -/
def expectedFrom (i next : Nat) (cs : List Nat) (os : List (Op κ)) : List Cmd :=
  if i < next then (if i ∈ cs then (eventsOf os).filterMap Event.cmd? else []) else expected (i - next) os

def NoDestroy (os : List (Op κ)) : Prop := ∀ i, .destroy i ∉ os

theorem callsTo_append (i : Nat) (a b : List Call) : callsTo i (a ++ b) = callsTo i a ++ callsTo i b := by
  simp [callsTo]

theorem callsTo_emission (alive : Nat → Bool) (cs : List Nat) (hn : cs.Nodup) (ha : ∀ c ∈ cs, alive c = true) (e : Event)
    (i : Nat) :
    callsTo i ((cs.map (fun c => (c, e))).flatMap (fun c => onSystemMessageReceived alive c.1 c.2))
      = if i ∈ cs then e.cmd?.toList else [] := by
  induction cs with
  | nil => simp [callsTo]
  | cons c cs ih =>
    have hnc := List.nodup_cons.mp hn
    simp only [List.map_cons, List.flatMap_cons, callsTo_append,
      ih hnc.2 (fun c hc => ha c (List.mem_cons_of_mem _ hc))]
    have hc : alive c = true := ha c List.mem_cons_self
    by_cases hi : i = c
    · subst hi
      rw [if_neg hnc.1, if_pos List.mem_cons_self]
      cases e <;> simp [onSystemMessageReceived, hc, callsTo, Event.cmd?]
    · have : (i ∈ c :: cs) ↔ i ∈ cs := by simp [hi]
      simp only [this]
      have h0 : callsTo i (onSystemMessageReceived alive c e) = [] := by
        cases e <;> simp [onSystemMessageReceived, hc, callsTo, Ne.symm hi]
      rw [h0, List.nil_append]

theorem run_calls {E : Sub.Emitter σ κ Nat Event} {ok : List κ → κ → Prop} {J : Sub.St σ κ → List κ → List Nat → Prop}
    (hE : Faithful E ok J) (os : List (Op κ)) (hd : NoDestroy os) (s : St σ κ) (ns : List κ) (cs : List Nat)
    (hJ : J s.sub ns cs) (hlt : ∀ c ∈ cs, c < s.next) (hnd : cs.Nodup) (ha : ∀ i, i < s.next → s.alive i = true)
    (hok : OkNames ok ns (slaveNames os)) (i : Nat) :
    callsTo i (run E s os).log = callsTo i s.log ++ expectedFrom i s.next cs os := by
  induction os generalizing s ns cs with
  | nil => by_cases h : i < s.next <;> simp [run, expectedFrom, h, eventsOf, expected]
  | cons o os ih =>
    have hd' : NoDestroy os := fun i hi => hd i (List.mem_cons_of_mem _ hi)
    have hrun : run E s (o :: os) = run E (step E s o) os := rfl
    rw [hrun]
    cases o with
    | destroy j => exact absurd List.mem_cons_self (hd j)
    | create n b =>
      cases b with
      | true =>
        have h1 := ih hd' (step E s (.create n true)) (ns ++ [n]) (cs ++ [s.next])
          (by simpa [step, create] using hE.reg _ _ _ n s.next hJ hok.1)
          (by
            intro c hc
            rcases List.mem_append.mp hc with h | h
            · have := hlt c h; simp only [step, create]; omega
            · simp at h; simp only [step, create]; omega)
          (by
            rw [List.nodup_append]
            refine ⟨hnd, by simp, ?_⟩
            intro a ha' b hb
            have := hlt a ha'
            simp at hb; omega)
          (by
            intro j hj
            simp only [step, create] at hj ⊢
            unfold upd
            split
            · rfl
            · exact ha j (by omega))
          hok.2
        rw [h1]
        have hl : (step E s (.create n true)).log = s.log := rfl
        rw [hl]
        congr 1
        simp only [expectedFrom, step, create]
        by_cases h : i < s.next
        · have h' : i < s.next + 1 := by omega
          simp only [h, h', if_true, eventsOf]
          have hne : i ≠ s.next := by omega
          simp [hne]
        · by_cases h2 : i = s.next
          · subst h2
            simp [expected]
          · have h' : ¬ i < s.next + 1 := by omega
            have h3 : i - s.next = (i - (s.next + 1)) + 1 := by omega
            simp only [h, h', if_false, h3, expected]
      | false =>
        have h1 := ih hd' (step E s (.create n false)) ns cs (by simpa [step, create] using hJ)
          (by intro c hc; have := hlt c hc; simp only [step, create]; omega)
          hnd
          (by
            intro j hj
            simp only [step, create] at hj ⊢
            unfold upd
            split
            · rfl
            · exact ha j (by omega))
          hok
        rw [h1]
        have hl : (step E s (.create n false)).log = s.log := rfl
        rw [hl]
        congr 1
        simp only [expectedFrom, step, create]
        by_cases h : i < s.next
        · have h' : i < s.next + 1 := by omega
          simp only [h, h', if_true, eventsOf]
        · by_cases h2 : i = s.next
          · subst h2
            have : s.next ∉ cs := fun hc => absurd (hlt _ hc) (by omega)
            simp [expected, this]
          · have h' : ¬ i < s.next + 1 := by omega
            have h3 : i - s.next = (i - (s.next + 1)) + 1 := by omega
            simp only [h, h', if_false, h3, expected]
    | event e =>
      obtain ⟨he1, he2⟩ := hE.emit s.sub ns cs e hJ
      have h1 := ih hd' (step E s (.event e)) ns cs (by simpa [step, event] using he2) hlt hnd ha hok
      rw [h1]
      have hl : (step E s (.event e)).log =
          s.log ++ (cs.map (fun c => (c, e))).flatMap (fun c => onSystemMessageReceived s.alive c.1 c.2) := by
        simp only [step, event, he1]
      rw [hl, callsTo_append, callsTo_emission s.alive cs hnd (fun c hc => ha c (hlt c hc)) e i, List.append_assoc]
      congr 1
      have hn : (step E s (.event e)).next = s.next := rfl
      simp only [expectedFrom, hn, eventsOf, expected]
      by_cases h : i < s.next
      · simp only [h, if_true]
        by_cases hc : i ∈ cs
        · simp only [hc, if_true]
          cases e <;> simp [Event.cmd?, List.filterMap_cons]
        · simp [hc]
      · have : i ∉ cs := fun hc => h (hlt _ hc)
        simp [h, this]


/-- Every step keeps the abstraction, and nothing dangles as long as nothing is destroyed. -/
theorem run_inv {E : Sub.Emitter σ κ Nat Event} {ok : List κ → κ → Prop} {J : Sub.St σ κ → List κ → List Nat → Prop}
    (hE : Faithful E ok J) (os : List (Op κ)) (hd : NoDestroy os) (s : St σ κ) (ns : List κ) (cs : List Nat)
    (hJ : J s.sub ns cs) (hlt : ∀ c ∈ cs, c < s.next) (ha : ∀ i, i < s.next → s.alive i = true)
    (hl : ∀ i, Call.dangling i ∉ s.log)
    (hok : OkNames ok ns (slaveNames os)) :
    ∃ ns' cs', J (run E s os).sub ns' cs' ∧ (∀ i, (i ∈ cs' ↔ i ∈ cs ∨ s.next ≤ i ∧ isSlave (i - s.next) os = true)) ∧
      (∀ i, Call.dangling i ∉ (run E s os).log) := by
  induction os generalizing s ns cs with
  | nil => exact ⟨ns, cs, hJ, by simp [isSlave], hl⟩
  | cons o os ih =>
    have hd' : NoDestroy os := fun i hi => hd i (List.mem_cons_of_mem _ hi)
    have hrun : run E s (o :: os) = run E (step E s o) os := rfl
    rw [hrun]
    cases o with
    | destroy j => exact absurd List.mem_cons_self (hd j)
    | create n b =>
      have hal : ∀ j, j < (step E s (.create n b)).next → (step E s (.create n b)).alive j = true := by
        intro j hj
        simp only [step, create] at hj ⊢
        unfold upd
        split
        · rfl
        · exact ha j (by omega)
      have arith : ∀ i, s.next ≤ i ∧ isSlave (i - s.next) (.create n b :: os) = true ↔
          (i = s.next ∧ b = true) ∨ (s.next + 1 ≤ i ∧ isSlave (i - (s.next + 1)) os = true) := by
        intro i
        rcases Nat.lt_trichotomy i s.next with h | h | h
        · constructor
          · rintro ⟨h1, _⟩; omega
          · rintro (⟨h1, _⟩ | ⟨h1, _⟩) <;> omega
        · subst h
          simp only [isSlave, Nat.sub_self, Nat.le_refl, true_and]
          constructor
          · exact Or.inl
          · rintro (h | ⟨h, _⟩)
            · exact h
            · omega
        · have h3 : i - s.next = (i - (s.next + 1)) + 1 := by omega
          rw [h3]
          simp only [isSlave]
          constructor
          · rintro ⟨_, h⟩; exact Or.inr ⟨by omega, h⟩
          · rintro (⟨h1, _⟩ | ⟨h1, h2⟩)
            · omega
            · exact ⟨by omega, h2⟩
      cases b with
      | true =>
        obtain ⟨ns', cs', h1, h2, h3⟩ := ih hd' (step E s (.create n true)) (ns ++ [n]) (cs ++ [s.next])
          (by simpa [step, create] using hE.reg _ _ _ n s.next hJ hok.1)
          (by
            intro c hc
            rcases List.mem_append.mp hc with h | h
            · have := hlt c h; simp only [step, create]; omega
            · simp at h; simp only [step, create]; omega)
          hal hl hok.2
        refine ⟨ns', cs', h1, ?_, h3⟩
        intro i
        rw [h2 i, arith i]
        have : (step E s (.create n true)).next = s.next + 1 := rfl
        rw [this]
        simp [or_assoc]
      | false =>
        obtain ⟨ns', cs', h1, h2, h3⟩ := ih hd' (step E s (.create n false)) ns cs (by simpa [step, create] using hJ)
          (by intro c hc; have := hlt c hc; simp only [step, create]; omega) hal hl hok
        refine ⟨ns', cs', h1, ?_, h3⟩
        intro i
        rw [h2 i, arith i]
        have : (step E s (.create n false)).next = s.next + 1 := rfl
        rw [this]
        simp
    | event e =>
      obtain ⟨he1, he2⟩ := hE.emit s.sub ns cs e hJ
      obtain ⟨ns', cs', h1, h2, h3⟩ := ih hd' (step E s (.event e)) ns cs (by simpa [step, event] using he2) hlt ha
        (by
          intro i hi
          simp only [step, event, he1, List.mem_append] at hi
          rcases hi with hi | hi
          · exact hl i hi
          · obtain ⟨c, hc, hi⟩ := List.mem_flatMap.mp hi
            obtain ⟨c', hc', rfl⟩ := List.mem_map.mp hc
            have hca := ha c' (hlt c' hc')
            cases e <;> simp [onSystemMessageReceived, hca] at hi)
        hok
      exact ⟨ns', cs', h1, h2, h3⟩

/-- Destroying a slave and publishing any event calls the destroyed object. -/
theorem dangling_after {E : Sub.Emitter σ κ Nat Event} {ok : List κ → κ → Prop} {J : Sub.St σ κ → List κ → List Nat → Prop}
    (hE : Faithful E ok J) (s : St σ κ) (ns : List κ) (cs : List Nat) (hJ : J s.sub ns cs) (i : Nat) (hi : i ∈ cs) (e : Event) :
    Call.dangling i ∈ (run E s [.destroy i, .event e]).log := by
  obtain ⟨he1, -⟩ := hE.emit s.sub ns cs e hJ
  simp only [run, List.foldl, step, destroy, event, he1, List.mem_append]
  refine Or.inr (List.mem_flatMap.mpr ⟨(i, e), List.mem_map.mpr ⟨i, hi, rfl⟩, ?_⟩)
  simp [onSystemMessageReceived, upd_same]

/-! ### The two emitters -/


def SafeJ {κ : Type} [LinearOrder κ] (ev : κ) (s : Sub.St (SafeEE.St κ Nat) κ) (_ : List κ) (cs : List Nat) : Prop :=
  ∃ r : EmitterSpec.Reg κ Nat, SafeEE.R s.em r ∧ r.count = cs.length ∧ (∀ x ∈ r.live, x.name = ev ∧ x.isOnce = false) ∧
    r.live.map (·.cb) = cs

theorem safe_faithful {κ : Type} [LinearOrder κ] (ev : κ) :
    Faithful (Sub.safeE ev) (fun ns _ => ns.length + 1 < 2 ^ 32)
      (fun s ns cs => SafeJ ev s ns cs ∧ ns.length = cs.length) := by
  constructor
  · rintro s ns cs n c ⟨⟨r, hR, hc, hl, hm⟩, hlen⟩ hok
    refine ⟨?_, by simp [hlen]⟩
    have := hR.add (by omega) ev false c
    refine ⟨_, this.2, by simp [hc], ?_, by simp [hm]⟩
    intro x hx
    rcases List.mem_append.mp hx with h | h
    · exact hl x h
    · simp at h; subst h; exact ⟨rfl, rfl⟩
  · rintro s ns cs e ⟨⟨r, hR, hc, hl, hm⟩, hlen⟩
    have hap := hR.apply (.emit ev e : SafeEE.Op κ Nat Event) (Or.inr ⟨by simp, by simp⟩)
    simp only [SafeEE.apply, EmitterSpec.apply] at hap
    obtain ⟨h1, h2⟩ := hap
    have hf : r.live.filter (fun x => decide (¬ (x.name = ev ∧ x.isOnce = true))) = r.live := by
      rw [List.filter_eq_self]
      intro x hx
      simp [hl x hx]
    have hf2 : r.live.filter (fun x => decide (x.name = ev)) = r.live := by
      rw [List.filter_eq_self]
      intro x hx
      simp [hl x hx]
    rw [hf] at h2
    simp only [SafeEE.Res.calls.injEq, hf2] at h1
    refine ⟨?_, ⟨r, h2, hc, hl, hm⟩, hlen⟩
    simp only [Sub.safeE, h1.1, ← hm]
    simp [Function.comp_def]

/-- On the multi-listener emitter the names must be distinct. -/
theorem multi_faithful (b : Bool) (ev : κ) :
    Faithful (Sub.multiE b ev) (fun ns n => n ∉ ns)
      (fun s ns cs => ∃ c l, Sub.MultiInv ev s c l ∧ Sub.pairs l = ns.zip cs ∧ ns.length = cs.length) := by
  constructor
  · rintro s ns cs n c ⟨k, l, hI, hp, hlen⟩ hok
    obtain ⟨-, _, l', hI', hp'⟩ := hI.step (b := b) (.reg n c : Sub.Op κ Nat Event) ⟨fun h => by simp at h, trivial⟩
    refine ⟨_, l', hI', ?_, by simp [hlen]⟩
    rw [hp', hp]
    have : n ∉ (ns.zip cs).map (·.1) := by
      rw [List.map_fst_zip (by omega)]; exact hok
    simp only [SubSpec.apply, if_neg this]
    rw [List.zip_append hlen]; rfl
  · rintro s ns cs e ⟨k, l, hI, hp, hlen⟩
    obtain ⟨h1, _, l', hI', hp'⟩ := hI.step (b := b) (.emit e : Sub.Op κ Nat Event) ⟨trivial, trivial⟩
    refine ⟨?_, _, l', hI', ?_, hlen⟩
    · simp only [Sub.apply, SubSpec.apply, Sub.Res.calls.injEq] at h1
      rw [h1, hp]
      have : (ns.zip cs).map (fun x => (x.2, e)) = ((ns.zip cs).map (·.2)).map (fun c => (c, e)) := by simp
      rw [this, List.map_snd_zip (by omega)]
    · rw [hp']; exact hp


/-! ### C47 -/

omit [DecidableEq κ] in
theorem okNames_nodup (ns l : List κ) : OkNames (fun ns n => n ∉ ns) ns l ↔ l.Nodup ∧ ∀ x ∈ l, x ∉ ns := by
  induction l generalizing ns with
  | nil => simp [OkNames]
  | cons a l ih =>
    simp only [OkNames, ih, List.nodup_cons, List.mem_append, List.mem_cons]
    constructor
    · rintro ⟨h1, h2, h3⟩
      refine ⟨⟨fun h => h3 a h (Or.inr (Or.inl rfl)), h2⟩, ?_⟩
      rintro x (rfl | hx)
      · exact h1
      · exact fun h => h3 x hx (Or.inl h)
    · rintro ⟨⟨h1, h2⟩, h3⟩
      refine ⟨h3 a (Or.inl rfl), h2, ?_⟩
      rintro x hx (h | h | h)
      · exact h3 x (Or.inr hx) h
      · exact h1 (h ▸ hx)
      · simp at h

omit [DecidableEq κ] in
theorem okNames_len (ns l : List κ) (h : ns.length + l.length < 2 ^ 32) : OkNames (fun ns _ => ns.length + 1 < 2 ^ 32) ns l := by
  induction l generalizing ns with
  | nil => trivial
  | cons a l ih =>
    simp only [List.length_cons] at h
    exact ⟨by omega, ih _ (by simp; omega)⟩

/-- The subscribers before anything happens. -/
theorem safe_start {κ : Type} [LinearOrder κ] (ev : κ) : SafeJ ev (Sub.newSafe : Sub.St (SafeEE.St κ Nat) κ) [] [] ∧
    ([] : List κ).length = ([] : List Nat).length :=
  ⟨⟨EmitterSpec.Reg.init, SafeEE.R.init, rfl, by simp [EmitterSpec.Reg.init], rfl⟩, rfl⟩

theorem multi_start (ev : κ) : ∃ c l, Sub.MultiInv ev (Sub.newMulti : Sub.St (MultiEE.St κ Nat) κ) c l ∧
    Sub.pairs l = ([] : List κ).zip ([] : List Nat) ∧ ([] : List κ).length = ([] : List Nat).length :=
  ⟨0, [], ⟨MultiEE.Inv.init, Sub.MapInv.empty⟩, rfl, rfl⟩

/-- **C47**, safe event emitter: for every history of fewer than 2^32 slaves in which no service is destroyed, and whatever their
names, every service gets exactly the commands published after its creation, in order (a master none), and no destroyed object is
called.
Missing: histories in which a slave is destroyed, see `C47_violation_destroyed`. -/
theorem C47_commands_safe_partial {κ : Type} [LinearOrder κ] (ev : κ) (os : List (Op κ)) (hd : ∀ i, .destroy i ∉ os)
    (hc : (slaveNames os).length < 2 ^ 32) (i : Nat) :
    callsTo i (run (Sub.safeE ev) (St.new Sub.newSafe) os).log = expected i os ∧
    .dangling i ∉ (run (Sub.safeE ev) (St.new Sub.newSafe) os).log := by
  have hok : OkNames (fun ns _ => ns.length + 1 < 2 ^ 32) [] (slaveNames os) := okNames_len _ _ (by simpa using hc)
  constructor
  · have := run_calls (safe_faithful ev) os hd (St.new Sub.newSafe) [] [] (safe_start ev) (by simp) (by simp)
      (by simp [St.new]) hok i
    simpa [expectedFrom, St.new, callsTo] using this
  · obtain ⟨_, _, _, _, h⟩ := run_inv (safe_faithful ev) os hd (St.new Sub.newSafe) [] [] (safe_start ev) (by simp)
      (by simp [St.new]) (by simp [St.new]) hok
    exact h i

/-- **C47**, unsafe multi-listener emitter: the same if the slaves have different names.
Missing: slaves of equal name (`C47_violation_same_name`) and destroyed slaves. -/
theorem C47_commands_multi_partial (b : Bool) (ev : κ) (os : List (Op κ)) (hd : ∀ i, .destroy i ∉ os)
    (hn : (slaveNames os).Nodup) (i : Nat) :
    callsTo i (run (Sub.multiE b ev) (St.new Sub.newMulti) os).log = expected i os ∧
    .dangling i ∉ (run (Sub.multiE b ev) (St.new Sub.newMulti) os).log := by
  have hok : OkNames (fun ns n => n ∉ ns) ([] : List κ) (slaveNames os) := (okNames_nodup _ _).mpr ⟨hn, by simp⟩
  constructor
  · have := run_calls (multi_faithful b ev) os hd (St.new Sub.newMulti) [] [] (multi_start ev) (by simp) (by simp)
      (by simp [St.new]) hok i
    simpa [expectedFrom, St.new, callsTo] using this
  · obtain ⟨_, _, _, _, h⟩ := run_inv (multi_faithful b ev) os hd (St.new Sub.newMulti) [] [] (multi_start ev) (by simp)
      (by simp [St.new]) (by simp [St.new]) hok
    exact h i

/-- **C47** fails: whatever happened before, once a slave has been destroyed the next event of any kind calls the destroyed
object, because the destructor leaves the listener registered. -/
theorem C47_violation_destroyed {κ : Type} [LinearOrder κ] (ev : κ) (os : List (Op κ)) (hd : ∀ i, .destroy i ∉ os)
    (hc : (slaveNames os).length < 2 ^ 32) (i : Nat) (hi : isSlave i os = true) (e : Event) :
    .dangling i ∈ (run (Sub.safeE ev) (St.new Sub.newSafe) (os ++ [.destroy i, .event e])).log := by
  have hok : OkNames (fun ns _ => ns.length + 1 < 2 ^ 32) [] (slaveNames os) := okNames_len _ _ (by simpa using hc)
  obtain ⟨ns, cs, h1, h2, -⟩ := run_inv (safe_faithful ev) os hd (St.new Sub.newSafe) [] [] (safe_start ev) (by simp)
    (by simp [St.new]) (by simp [St.new]) hok
  have hm : i ∈ cs := by rw [h2 i]; right; simpa [St.new] using hi
  have := dangling_after (safe_faithful ev) _ ns cs h1 i hm e
  rw [run, List.foldl_append]
  exact this

/-- The same with the unsafe multi-listener emitter. -/
theorem C47_violation_destroyed_multi (b : Bool) (ev : κ) (os : List (Op κ)) (hd : ∀ i, .destroy i ∉ os)
    (hn : (slaveNames os).Nodup) (i : Nat) (hi : isSlave i os = true) (e : Event) :
    .dangling i ∈ (run (Sub.multiE b ev) (St.new Sub.newMulti) (os ++ [.destroy i, .event e])).log := by
  have hok : OkNames (fun ns n => n ∉ ns) ([] : List κ) (slaveNames os) := (okNames_nodup _ _).mpr ⟨hn, by simp⟩
  obtain ⟨ns, cs, h1, h2, -⟩ := run_inv (multi_faithful b ev) os hd (St.new Sub.newMulti) [] [] (multi_start ev) (by simp)
    (by simp [St.new]) (by simp [St.new]) hok
  have hm : i ∈ cs := by rw [h2 i]; right; simpa [St.new] using hi
  have := dangling_after (multi_faithful b ev) _ ns cs h1 i hm e
  rw [run, List.foldl_append]
  exact this

/-- **C47** fails: of two slaves with the same name on a subscriber with an unsafe multi-listener emitter the second gets no
command. -/
theorem C47_violation_same_name :
    (run (Sub.multiE false (9 : Nat)) (St.new Sub.newMulti) [.create 1 true, .create 1 true, .event .start, .event .stop]).log
      = [.cmd 0 .startup, .cmd 0 .shutdown] ∧
    expected 1 [.create 1 true, .create 1 true, .event .start, (.event .stop : Op Nat)] = [.startup, .shutdown] := by
  decide +kernel

/-- A history that meets the hypotheses: three services (the second a master), events before and after. -/
theorem C47_example :
    let os : List (Op Nat) := [.event .start, .create 1 true, .event .start, .create 5 false, .create 2 true, .event .idle,
      .event .stop, .event .start]
    (∀ i, .destroy i ∉ os) ∧ (slaveNames os).Nodup ∧ (slaveNames os).length < 2 ^ 32 ∧
    (run (Sub.safeE (9 : Nat)) (St.new Sub.newSafe) os).log =
      [.cmd 0 .startup, .cmd 0 .shutdown, .cmd 2 .shutdown, .cmd 0 .startup, .cmd 2 .startup] ∧
    isSlave 2 os = true := by
  refine ⟨by simp, ?_⟩
  decide +kernel

end Verif.Managed
