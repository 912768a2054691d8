import Verif.Lemmas.ElDispatchInv

/-! What the specification of C79 says about one listener. -/

namespace Verif.ElD
open Verif

variable {D F : Type} [DecidableEq D] [DecidableEq F]

/-- Registrations have different numbers. -/
structure W (own : Nat → String × K) (a : Abs (Msg D F)) : Prop where
  live : ∀ n, ∀ e ∈ a.live n, own e.no = (n, e.kind) ∧ e.no < a.count
  nd : ∀ n, ((a.live n).map Ent.no).Nodup
  cur : ∀ n m es, a.cur = some (n, m, es) → (∀ e ∈ es, own e.no = (n, e.kind) ∧ e.no < a.count) ∧ (es.map Ent.no).Nodup

/-- The event listener `no` is still to be called with. -/
def pend (no : Nat) (a : Abs (Msg D F)) : List (Msg D F) :=
  match a.cur with
  | some (_, m, es) => if no ∈ es.map Ent.no then [m] else []
  | none => []

theorem W.init : W (fun _ => ("", .once)) (Abs.init : Abs (Msg D F)) where
  live := by simp [Abs.init]
  nd := by simp [Abs.init]
  cur := by simp [Abs.init]

theorem W.add {own : Nat → String × K} {a : Abs (Msg D F)} (h : W own a) (n : String) (kd : K) :
    W (upd own a.count (n, kd)) { a with count := a.count + 1, live := upd a.live n (a.live n ++ [⟨a.count, kd⟩]) } := by
  have hold : ∀ e : Ent, e.no < a.count → upd own a.count (n, kd) e.no = own e.no := fun e he => upd_other _ _ (by omega)
  constructor
  · intro m e he
    simp only [upd_apply] at he
    have main : e ∈ a.live m → upd own a.count (n, kd) e.no = (m, e.kind) ∧ e.no < a.count + 1 := fun he => by
      obtain ⟨h1, h2⟩ := h.live m e he
      exact ⟨by rw [hold e h2]; exact h1, by omega⟩
    split at he
    · rename_i hm
      subst hm
      rcases List.mem_append.mp he with he | he
      · exact main he
      · simp only [List.mem_singleton] at he
        subst he
        exact ⟨upd_same _ _ _, Nat.lt_succ_self _⟩
    · exact main he
  · intro m
    simp only [upd_apply]
    split
    · rename_i hm
      subst hm
      exact (nos_append ⟨fun e he => (h.live m e he).2, h.nd m⟩ kd).2
    · exact h.nd m
  · intro m d es he
    obtain ⟨h1, h2⟩ := h.cur m d es he
    exact ⟨fun e he => ⟨by rw [hold e (h1 e he).2]; exact (h1 e he).1, Nat.lt_succ_of_lt (h1 e he).2⟩, h2⟩

theorem W.next {own : Nat → String × K} {a a' : Abs (Msg D F)} (h : W own a) {e : Ev (Msg D F)} (he : a.next e = some a') :
    ∃ own', W own' a' ∧ a.count ≤ a'.count ∧ ∀ no, no < a.count → own' no = own no := by
  have hle : ∀ (n : String) (kd : K), ∀ no, no < a.count → upd own a.count (n, kd) no = own no := fun n kd no hno => upd_other _ _ (by omega)
  match e, he with
  | .reg n l, he => cases he; exact ⟨_, h.add n _, Nat.le_succ _, hle _ _⟩
  | .once n, he => cases he; exact ⟨_, h.add n _, Nat.le_succ _, hle _ _⟩
  | .sched n, he => cases he; exact ⟨_, h.add n _, Nat.le_succ _, hle _ _⟩
  | .rem n l, he =>
    cases he
    refine ⟨own, ⟨fun m e he => ?_, fun m => ?_, h.cur⟩, Nat.le_refl _, fun _ _ => rfl⟩
    · simp only [upd_apply] at he
      split at he
      · rename_i hm; subst hm; exact h.live m e (List.mem_filter.mp he).1
      · exact h.live m e he
    · simp only [upd_apply]
      split
      · rename_i hm; subst hm; exact (h.nd m).sublist ((List.filter_sublist).map _)
      · exact h.nd m
  | .start n (some m), he =>
    simp only [Abs.next] at he
    split at he
    · cases he
      refine ⟨own, ⟨h.live, h.nd, fun n' m' es he => ?_⟩, Nat.le_refl _, fun _ _ => rfl⟩
      cases he
      exact ⟨h.live n, h.nd n⟩
    · cases he
  | .start _ none, he => cases he
  | .call no m ret, he =>
    simp only [Abs.next] at he
    split at he
    · rename_i n m' e rest hc
      obtain ⟨h1, h2⟩ := h.cur _ _ _ hc
      split at he
      · split at he
        · cases he
          refine ⟨own, ⟨?_, ?_, ?_⟩, Nat.le_refl _, fun _ _ => rfl⟩
          · intro n' x hx
            dsimp only at hx
            split at hx
            · simp only [upd_apply] at hx
              split at hx
              · rename_i hm; subst hm; exact h.live _ x (List.mem_filter.mp hx).1
              · exact h.live _ x hx
            · exact h.live _ x hx
          · intro n'
            dsimp only
            split
            · simp only [upd_apply]
              split
              · rename_i hm; subst hm; exact (h.nd _).sublist ((List.filter_sublist).map _)
              · exact h.nd _
            · exact h.nd _
          · intro n' m'' es he
            cases he
            exact ⟨fun x hx => h1 x (List.mem_cons_of_mem _ hx), (List.nodup_cons.mp h2).2⟩
        · cases he
          exact ⟨own, ⟨h.live, h.nd, nofun⟩, Nat.le_refl _, fun _ _ => rfl⟩
      · cases he
    · cases he
  | .fin, he =>
    simp only [Abs.next] at he
    split at he
    · cases he
      exact ⟨own, ⟨h.live, h.nd, nofun⟩, Nat.le_refl _, fun _ _ => rfl⟩
    · cases he
  | .bad, he => cases he

theorem W.run {own : Nat → String × K} {a a' : Abs (Msg D F)} (h : W own a) {es : List (Ev (Msg D F))} (he : a.run es = some a') :
    ∃ own', W own' a' := by
  induction es generalizing a own with
  | nil => cases he; exact ⟨own, h⟩
  | cons e es ih =>
    simp only [Abs.run] at he
    split at he
    · cases he
    · rename_i a1 h1
      obtain ⟨own', h2, _⟩ := h.next h1
      exact ih h2 he

/-- Registrations are counted. -/
theorem run_count {a a' : Abs (Msg D F)} {es : List (Ev (Msg D F))} (he : a.run es = some a') : a'.count = a.count + regs es := by
  induction es generalizing a with
  | nil => cases he; rfl
  | cons e es ih =>
    simp only [Abs.run] at he
    split at he
    · cases he
    · rename_i a1 h1
      rw [ih he]
      match e, h1 with
      | .reg n l, h1 | .once n, h1 | .sched n, h1 => cases h1; simp [regs]; omega
      | .rem n l, h1 => cases h1; simp [regs]
      | .start n (some m), h1 =>
        simp only [Abs.next] at h1
        split at h1 <;> cases h1
        simp [regs]
      | .start _ none, h1 => cases h1
      | .call no m ret, h1 =>
        simp only [Abs.next] at h1
        (repeat' split at h1) <;> first | (cases h1; done) | (cases h1; simp [regs])
      | .fin, h1 =>
        simp only [Abs.next] at h1
        split at h1 <;> cases h1
        simp [regs]
      | .bad, h1 => cases h1

/-- Listener `no` is registered on topic `n`. -/
def On (no : Nat) (n : String) (a : Abs (Msg D F)) : Prop := no ∈ (a.live n).map Ent.no

instance (no : Nat) (n : String) (a : Abs (Msg D F)) : Decidable (On no n a) := inferInstanceAs (Decidable (_ ∈ _))

omit [DecidableEq D] [DecidableEq F] in
theorem W.on {own : Nat → String × K} {a : Abs (Msg D F)} (h : W own a) {no : Nat} {n : String} (ho : On no n a) : (own no).1 = n := by
  obtain ⟨e, he, rfl⟩ := List.mem_map.mp ho
  rw [(h.live n e he).1]

/-- What one step means for listener `no`, registered before on topic `n`. -/
theorem next_track {own : Nat → String × K} {a a' : Abs (Msg D F)} (h : W own a) {e : Ev (Msg D F)} (he : a.next e = some a') {no : Nat} (hno : no < a.count)
    {n : String} (hn : (own no).1 = n) :
    ((callsOf no [e] ++ pend no a').Sublist (pend no a ++ if On no n a then eventsOn n [e] else [])) ∧
    ((∀ no' m, e ≠ .call no' m false) → callsOf no [e] ++ pend no a' = pend no a ++ if On no n a then eventsOn n [e] else []) ∧
    (¬ On no n a → ¬ On no n a') ∧
    (On no n a → (∀ l, (own no).2 = .named l → e ≠ .rem n l) → ((own no).2 = .once → ∀ m, e ≠ .call no m true) → On no n a') ∧
    ((own no).2 = .once → (∃ m, e = .call no m true) → ¬ On no n a' ∧ pend no a' = []) := by
  have hadd : ∀ kd m, a' = { a with count := a.count + 1, live := upd a.live m (a.live m ++ [⟨a.count, kd⟩]) } → (pend no a' = pend no a) ∧ (On no n a' ↔ On no n a) := by
    rintro kd m rfl
    refine ⟨rfl, ?_⟩
    simp only [On, upd_apply]
    split
    · rename_i hm
      subst hm
      simp only [List.map_append, List.map_cons, List.map_nil, List.mem_append, List.mem_singleton]
      constructor
      · rintro (h | h)
        · exact h
        · omega
      · exact .inl
    · exact Iff.rfl
  have heq : ∀ (x y : List (Msg D F)), x = y → x.Sublist y ∧ ((∀ no' m, e ≠ .call no' m false) → x = y) := fun _ _ h => ⟨h ▸ List.Sublist.refl _, fun _ => h⟩
  match e, he, heq with
  | .reg m l, he, heq | .once m, he, heq | .sched m, he, heq =>
    cases he
    obtain ⟨h1, h2⟩ := hadd _ _ rfl
    rw [h1, h2]
    rw [← and_assoc]
    refine ⟨heq _ _ ?_, id, fun h _ _ => h, fun _ h => by obtain ⟨m, h⟩ := h; cases h⟩
    simp [callsOf, eventsOn]
  | .rem m l, he, heq =>
    cases he
    rw [← and_assoc]
    refine ⟨heq _ _ (by simp [callsOf, eventsOn, pend]), ?_, ?_, fun _ h => by obtain ⟨m, h⟩ := h; cases h⟩
    · intro h1 h2
      apply h1
      simp only [On, upd_apply] at h2
      split at h2
      · rename_i hm; subst hm
        obtain ⟨x, hx, rfl⟩ := List.mem_map.mp h2
        exact List.mem_map_of_mem (List.mem_filter.mp hx).1
      · exact h2
    · intro h1 h2 _
      simp only [On, upd_apply]
      split
      · rename_i hm; subst hm
        obtain ⟨x, hx, rfl⟩ := List.mem_map.mp h1
        refine List.mem_map_of_mem (List.mem_filter.mpr ⟨hx, ?_⟩)
        rw [decide_eq_true_eq]
        intro hk
        refine h2 l ?_ rfl
        rw [(h.live _ x hx).1, hk]
      · exact h1
  | .start m (some d), he, heq =>
    simp only [Abs.next] at he
    split at he
    · rename_i hc
      cases he
      rw [Option.isNone_iff_eq_none] at hc
      rw [← and_assoc]
      refine ⟨heq _ _ ?_, id, fun h _ _ => h, fun _ h => by obtain ⟨m, h⟩ := h; cases h⟩
      simp only [callsOf, eventsOn, pend, hc, List.filterMap_cons, List.filterMap_nil, List.nil_append]
      by_cases hmn : m = n
      · subst hmn
        simp [On]
      · have : no ∉ (a.live m).map Ent.no := fun ho => hmn ((W.on h ho).symm.trans hn)
        simp [hmn, this]
    · cases he
  | .start _ none, he, _ => cases he
  | .call no' m ret, he, heq =>
    simp only [Abs.next] at he
    split at he
    · rename_i n' m' e rest hc
      obtain ⟨h1, h2⟩ := h.cur _ _ _ hc
      simp only [List.map_cons, List.nodup_cons] at h2
      split at he
      · rename_i hcond
        obtain ⟨rfl, rfl, hsu⟩ := hcond
        split at he
        · rename_i hret
          cases he
          rw [← and_assoc]
          refine ⟨heq _ _ ?_, ?_, ?_, ?_⟩
          · simp only [callsOf, eventsOn, pend, hc, List.filterMap_cons, List.filterMap_nil, List.map_cons, List.mem_cons, ite_self, List.append_nil]
            by_cases hno' : e.no = no
            · subst hno'
              simp [h2.1]
            · simp [hno', Ne.symm hno']
          · intro g1 g2
            apply g1
            simp only [On] at g2 ⊢
            split at g2
            · simp only [upd_apply] at g2
              split at g2
              · rename_i hm; subst hm
                obtain ⟨x, hx, rfl⟩ := List.mem_map.mp g2
                exact List.mem_map_of_mem (List.mem_filter.mp hx).1
              · exact g2
            · exact g2
          · intro g1 _ g3
            simp only [On] at g1 ⊢
            split
            · rename_i hk
              simp only [upd_apply]
              split
              · rename_i hm; subst hm
                obtain ⟨x, hx, rfl⟩ := List.mem_map.mp g1
                refine List.mem_map_of_mem (List.mem_filter.mpr ⟨hx, ?_⟩)
                rw [decide_eq_true_eq]
                intro hxe
                refine g3 ?_ m (by rw [hxe, hret])
                rw [hxe, (h1 e List.mem_cons_self).1, hk]
              · exact g1
            · exact g1
          · rintro g1 ⟨m1, hm1⟩
            cases hm1
            have g2 := (h1 e List.mem_cons_self).1
            rw [g2] at g1 hn
            simp only at g1 hn
            subst hn
            simp only [On, g1, if_true, upd_same, pend]
            refine ⟨?_, by simp [h2.1]⟩
            intro hx
            obtain ⟨x, hx, hxe⟩ := List.mem_map.mp hx
            have := (List.mem_filter.mp hx).2
            rw [decide_eq_true_eq] at this
            exact this hxe
        · rename_i hret
          cases he
          have hret : ret = false := by simpa using hret
          subst hret
          refine ⟨?_, fun hh => absurd rfl (hh _ _), id, fun h _ _ => h, fun _ h => by obtain ⟨m, h⟩ := h; cases h⟩
          simp only [callsOf, eventsOn, pend, hc, List.filterMap_cons, List.filterMap_nil, List.map_cons, List.mem_cons, ite_self, List.append_nil]
          by_cases hno' : e.no = no
          · subst hno'
            simp
          · simp [hno', Ne.symm hno']
      · cases he
    · cases he
  | .fin, he, heq =>
    simp only [Abs.next] at he
    split at he
    · rename_i hc
      cases he
      rw [← and_assoc]
      refine ⟨heq _ _ ?_, id, fun h _ _ => h, fun _ h => by obtain ⟨m, h⟩ := h; cases h⟩
      simp [callsOf, eventsOn, pend, hc]
    · cases he
  | .bad, he, _ => cases he

omit [DecidableEq D] [DecidableEq F] in
theorem callsOf_cons (no : Nat) (e : Ev (Msg D F)) (h : List (Ev (Msg D F))) : callsOf no (e :: h) = callsOf no [e] ++ callsOf no h := by
  rw [show e :: h = [e] ++ h from rfl, callsOf, List.filterMap_append]; rfl

omit [DecidableEq D] [DecidableEq F] in
theorem eventsOn_cons (n : String) (e : Ev (Msg D F)) (h : List (Ev (Msg D F))) : eventsOn n (e :: h) = eventsOn n [e] ++ eventsOn n h := by
  rw [show e :: h = [e] ++ h from rfl, eventsOn, List.filterMap_append]; rfl

/-- Called with events of the topic only, in order, not twice with the same. -/
theorem track_sub {own : Nat → String × K} {a a' : Abs (Msg D F)} (h : W own a) {es : List (Ev (Msg D F))} (he : a.run es = some a') {no : Nat} (hno : no < a.count) :
    (callsOf no es ++ pend no a').Sublist (pend no a ++ eventsOn (own no).1 es) := by
  induction es generalizing a own with
  | nil => cases he; simp [callsOf, eventsOn]
  | cons e es ih =>
    simp only [Abs.run] at he
    split at he
    · cases he
    · rename_i a1 h1
      obtain ⟨own', h2, h3, h4⟩ := h.next h1
      have h5 := (next_track h h1 hno rfl).1
      have h6 := ih h2 he (by omega)
      rw [h4 no hno] at h6
      rw [callsOf_cons, eventsOn_cons, List.append_assoc]
      refine (List.Sublist.append_left h6 _).trans ?_
      rw [← List.append_assoc, ← List.append_assoc]
      refine List.Sublist.append_right (h5.trans (List.Sublist.append_left ?_ _)) _
      split
      · exact List.Sublist.refl _
      · exact List.nil_sublist _

/-- Not registered any more: at most the event of the delivery under way. -/
theorem track_gone {own : Nat → String × K} {a a' : Abs (Msg D F)} (h : W own a) {es : List (Ev (Msg D F))} (he : a.run es = some a') {no : Nat} (hno : no < a.count)
    (hg : ¬ On no (own no).1 a) : (callsOf no es ++ pend no a').Sublist (pend no a) := by
  induction es generalizing a own with
  | nil => cases he; simp [callsOf]
  | cons e es ih =>
    simp only [Abs.run] at he
    split at he
    · cases he
    · rename_i a1 h1
      obtain ⟨own', h2, h3, h4⟩ := h.next h1
      obtain ⟨h5, _, h7, _⟩ := next_track h h1 hno rfl
      have h6 := ih h2 he (by omega) (by rw [h4 no hno]; exact h7 hg)
      rw [if_neg hg, List.append_nil] at h5
      rw [callsOf_cons, List.append_assoc]
      exact (List.Sublist.append_left h6 _).trans h5

/-- A listener that stays, without exceptions: called with every event of its topic. -/
theorem track_exact {own : Nat → String × K} {a a' : Abs (Msg D F)} (h : W own a) {es : List (Ev (Msg D F))} (he : a.run es = some a') {no : Nat} (hno : no < a.count)
    (hon : On no (own no).1 a) (hnt : NoThrow es) (hk : (own no).2 ≠ .once) (hrem : ∀ l, (own no).2 = .named l → .rem (own no).1 l ∉ es) :
    callsOf no es ++ pend no a' = pend no a ++ eventsOn (own no).1 es := by
  induction es generalizing a own with
  | nil => cases he; simp [callsOf, eventsOn]
  | cons e es ih =>
    simp only [Abs.run] at he
    split at he
    · cases he
    · rename_i a1 h1
      obtain ⟨own', h2, h3, h4⟩ := h.next h1
      obtain ⟨_, h5, _, h7, _⟩ := next_track h h1 hno rfl
      have h5 := h5 (fun no' m e' => hnt no' m (by rw [← e']; exact List.mem_cons_self))
      have h7 := h7 hon (fun l hl e' => hrem l hl (by rw [← e']; exact List.mem_cons_self)) (fun e' => absurd e' hk)
      have h6 := ih h2 he (by omega) (by rw [h4 no hno]; exact h7) (fun no' m h' => hnt no' m (List.mem_cons_of_mem _ h')) (by rw [h4 no hno]; exact hk)
        (fun l hl h' => hrem l (by rw [← h4 no hno]; exact hl) (by rw [← h4 no hno]; exact List.mem_cons_of_mem _ h'))
      rw [if_pos hon] at h5
      rw [h4 no hno] at h6
      rw [callsOf_cons, eventsOn_cons, List.append_assoc, h6, ← List.append_assoc, ← List.append_assoc, h5]

omit [DecidableEq D] [DecidableEq F] in
theorem pend_le (no : Nat) (a : Abs (Msg D F)) : (pend no a).length ≤ 1 := by
  simp only [pend]
  split
  · split <;> simp
  · simp

/-- A once listener, without exceptions: called with the first event of its topic. -/
theorem track_once {own : Nat → String × K} {a a' : Abs (Msg D F)} (h : W own a) {es : List (Ev (Msg D F))} (he : a.run es = some a') {no : Nat} (hno : no < a.count)
    (hon : On no (own no).1 a) (hnt : NoThrow es) (hk : (own no).2 = .once) :
    callsOf no es ++ pend no a' = (pend no a ++ eventsOn (own no).1 es).take 1 := by
  induction es generalizing a own with
  | nil =>
    cases he
    simp [callsOf, eventsOn, List.take_of_length_le (pend_le no _)]
  | cons e es ih =>
    simp only [Abs.run] at he
    split at he
    · cases he
    · rename_i a1 h1
      obtain ⟨own', h2, h3, h4⟩ := h.next h1
      obtain ⟨_, h5, _, h7, h8⟩ := next_track h h1 hno rfl
      have h5 := h5 (fun no' m e' => hnt no' m (by rw [← e']; exact List.mem_cons_self))
      rw [if_pos hon] at h5
      by_cases hc : ∃ m, e = .call no m true
      · obtain ⟨g1, g2⟩ := h8 hk hc
        have g3 := track_gone (no := no) h2 he (by omega) (by rw [h4 no hno]; exact g1)
        rw [g2] at g3 h5
        have g3 := List.sublist_nil.mp g3
        rw [callsOf_cons, eventsOn_cons, List.append_assoc, g3, ← List.append_assoc (pend no a), ← h5]
        obtain ⟨m, rfl⟩ := hc
        simp [callsOf]
      · have h7 := h7 hon (fun l hl => by rw [hk] at hl; cases hl) (fun _ m e' => hc ⟨m, e'⟩)
        have hce : callsOf no [e] = [] := by
          cases e with
          | call no' m ret =>
            by_cases hnn : no' = no
            · subst hnn
              cases ret with
              | false => exact absurd List.mem_cons_self (hnt no' m)
              | true => exact absurd ⟨m, rfl⟩ hc
            · simp [callsOf, hnn]
          | _ => rfl
        have h6 := ih h2 he (by omega) (by rw [h4 no hno]; exact h7) (fun no' m h' => hnt no' m (List.mem_cons_of_mem _ h')) (by rw [h4 no hno]; exact hk)
        rw [h4 no hno] at h6
        rw [hce, List.nil_append] at h5
        rw [callsOf_cons, eventsOn_cons, List.append_assoc, h6, ← List.append_assoc, hce, h5, List.nil_append]

/-- The state after a registration. -/
theorem after_reg {h1 h2 : List (Ev (Msg D F))} {e : Ev (Msg D F)} {a' : Abs (Msg D F)} {n : String} {kd : K} (hr : (Abs.init : Abs (Msg D F)).run (h1 ++ e :: h2) = some a')
    (he : ∀ a : Abs (Msg D F), a.next e = some { a with count := a.count + 1, live := upd a.live n (a.live n ++ [⟨a.count, kd⟩]) }) :
    ∃ own a, W own a ∧ a.run h2 = some a' ∧ regs h1 < a.count ∧ own (regs h1) = (n, kd) ∧ On (regs h1) n a ∧ pend (regs h1) a = [] ∧ callsOf (regs h1) (h1 ++ [e]) = [] := by
  rw [Abs.run_append] at hr
  obtain ⟨a0, hr0, hr⟩ := Option.bind_eq_some_iff.mp hr
  simp only [Abs.run, he a0] at hr
  have hcnt := run_count hr0
  simp only [Abs.init, Nat.zero_add] at hcnt
  obtain ⟨own0, hw0⟩ := W.init.run hr0
  refine ⟨_, _, hw0.add n kd, hr, by simp [hcnt], by rw [← hcnt, upd_same], ?_, ?_, ?_⟩
  · simp [On, hcnt]
  · simp only [pend]
    split
    · rename_i m d es hc
      rw [if_neg]
      intro hm
      obtain ⟨x, hx, hxe⟩ := List.mem_map.mp hm
      have := ((hw0.cur _ _ _ hc).1 x hx).2
      omega
    · rfl
  · have hce : callsOf (regs h1) [e] = [] := by
      have := he Abs.init
      cases e with
      | call no' m ret => simp [Abs.next, Abs.init] at this
      | _ => rfl
    rw [show callsOf (regs h1) (h1 ++ [e]) = callsOf (regs h1) h1 ++ callsOf (regs h1) [e] from List.filterMap_append .., hce, List.append_nil]
    -- nobody is called under a number that is not yet taken
    have : ∀ (es : List (Ev (Msg D F))) (own : Nat → String × K) (a a' : Abs (Msg D F)), W own a → a.run es = some a' → ∀ no, a'.count ≤ no → callsOf no es = [] := by
      intro es
      induction es with
      | nil => intros; rfl
      | cons e es ih =>
        intro own a a' hw hr no hno
        have hc := run_count hr
        simp only [Abs.run] at hr
        split at hr
        · cases hr
        · rename_i a1 g1
          obtain ⟨own', g2, _⟩ := hw.next g1
          rw [callsOf_cons, ih own' a1 a' g2 hr no hno, List.append_nil]
          cases e with
          | call no' m ret =>
            simp only [Abs.next] at g1
            split at g1
            · rename_i n' m' x rest hcur
              split at g1
              · rename_i hcond
                have := ((hw.cur _ _ _ hcur).1 x List.mem_cons_self).2
                have : no' ≠ no := by have := hcond.1; omega
                simp [callsOf, this]
              · cases g1
            · cases g1
          | _ => rfl
    exact this h1 _ _ _ W.init hr0 _ (by omega)

end Verif.ElD
