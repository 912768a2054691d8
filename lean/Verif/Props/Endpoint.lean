import Verif.Model.Endpoint

/-! Properties of server and client sockets (C68). -/

namespace Verif.Endpoint
open Verif Verif.Socket

/-- The addresses that are meant: a port number, a path that fits. -/
def Addr.Fits : Addr → Prop
  | .port n => 0 < n ∧ n < 65536
  | .path b => b ≠ [] ∧ (∀ x ∈ b, x ≠ 0) ∧ b.length < sunPath

theorem takeWhile_all {r : List Nat} (h : ∀ x ∈ r, x ≠ 0) : r.takeWhile (· ≠ 0) = r := by
  induction r with
  | nil => rfl
  | cons x r ih =>
    have hx : x ≠ 0 := h x (by simp)
    rw [List.takeWhile_cons, if_pos (by simpa using hx), ih (fun y hy => h y (by simp [hy]))]

/-- Addresses that fit are told apart. -/
theorem C68_names_differ {a b : Addr} (ha : a.Fits) (hb : b.Fits) (h : a.name = b.name) : a = b := by
  cases a with
  | port n =>
    cases b with
    | port m =>
      simp only [Addr.name, Name.port.injEq] at h
      simp only [Addr.Fits] at ha hb
      congr 1; omega
    | path q => simp [Addr.name] at h
  | path p =>
    cases b with
    | port m => simp [Addr.name] at h
    | path q =>
      have key : ∀ r : List Nat, (∀ x ∈ r, x ≠ 0) → r.length < sunPath → (r.takeWhile (· ≠ 0)).take (sunPath - 1) = r := by
        intro r h0 hl
        have h1 : r.takeWhile (· ≠ 0) = r := by
          exact takeWhile_all h0
        rw [h1, List.take_of_length_le (by unfold sunPath at *; omega)]
      simp only [Addr.name, Name.path.injEq] at h
      rw [key p ha.2.1 ha.2.2, key q hb.2.1 hb.2.2] at h
      rw [h]

structure Inv (s : St) : Prop where
  srvLt : ∀ o v, s.srv o = some v → v.tok < s.nextTok ∧ s.live v.tok = true
  srvInj : ∀ o o' v v', s.srv o = some v → s.srv o' = some v' → v.tok = v'.tok → o = o'
  liveSrv : ∀ k, s.live k = true → ∃ o v, s.srv o = some v ∧ v.tok = k
  boundLt : ∀ n k, s.bound n = some k → k < s.nextTok ∧ ∃ a, s.asked k = some a ∧ a.name = n
  liveBound : ∀ k, s.live k = true → ∃ a, s.asked k = some a ∧ s.bound a.name = some k
  portLive : ∀ p k, s.bound (.port p) = some k → s.live k = true
  connOk : ∀ c a k, s.conn c = some (a, k) → c < s.nextConn ∧ k < s.nextTok ∧ ∃ b, s.asked k = some b ∧ b.name = a.name
  madeConn : ∀ k c, c ∈ s.made k → ∃ a, s.conn c = some (a, k)
  madeLt : ∀ k, s.nextTok ≤ k → s.live k = false ∧ s.made k = [] ∧ s.acc k = [] ∧ s.queue k = []
  sorted : ∀ k, (s.made k).Pairwise (· < ·)
  fifo : ∀ k, ∃ lost, s.made k = s.acc k ++ s.queue k ++ lost ∧ (s.live k = true → lost = [])
  dead : ∀ k, s.live k = false → s.queue k = []

theorem init_inv : Inv .init :=
  ⟨nofun, nofun, nofun, nofun, nofun, nofun, nofun, nofun, fun _ _ => ⟨rfl, rfl, rfl, rfl⟩, fun _ => List.Pairwise.nil, fun _ => ⟨[], rfl, fun _ => rfl⟩, fun _ _ => rfl⟩

theorem inv_step {s s' : St} {a : Act} (hi : Inv s) (hs : step s a = some s') : Inv s' := by
  cases a with
  | server o a fd =>
    simp only [step] at hs
    split at hs
    · next hc =>
      split at hs
      · cases hs; exact { hi with }
      · next hb =>
        cases hs
        have hlt : ∀ k, k < s.nextTok → k ≠ s.nextTok := fun k h => by omega
        refine ⟨?_, ?_, ?_, ?_, ?_, ?_, ?_, hi.madeConn, ?_, hi.sorted, ?_, ?_⟩
        · intro o' v hv
          simp only [upd_apply] at hv
          split at hv
          · cases hv; exact ⟨Nat.lt_succ_self _, by simp⟩
          · obtain ⟨h1, h2⟩ := hi.srvLt o' v hv
            exact ⟨Nat.lt_succ_of_lt h1, by simp only [upd_other _ _ (hlt _ h1)]; exact h2⟩
        · intro o1 o2 v1 v2 h1 h2 e
          simp only [upd_apply] at h1 h2
          split at h1 <;> split at h2
          · subst_vars; rfl
          · cases h1; have := (hi.srvLt _ _ h2).1; simp only at e; omega
          · cases h2; have := (hi.srvLt _ _ h1).1; simp only at e; omega
          · exact hi.srvInj _ _ _ _ h1 h2 e
        · intro k hk
          simp only [upd_apply] at hk
          split at hk
          · next e => subst e; exact ⟨o, _, upd_same _ _ _, rfl⟩
          · obtain ⟨o', v, h1, h2⟩ := hi.liveSrv k hk
            exact ⟨o', v, by show upd _ _ _ _ = _; rw [upd_other _ _ (fun e => by rw [e, hc.1] at h1; cases h1)]; exact h1, h2⟩
        · intro n k hk
          simp only [upd_apply] at hk
          split at hk
          · next e => cases hk; exact ⟨Nat.lt_succ_self _, a, upd_same _ _ _, e.symm⟩
          · obtain ⟨h1, b, h2, h3⟩ := hi.boundLt n k hk
            exact ⟨Nat.lt_succ_of_lt h1, b, by show upd _ _ _ _ = _; rw [upd_other _ _ (hlt _ h1)]; exact h2, h3⟩
        · intro k hk
          simp only [upd_apply] at hk
          split at hk
          · next e => subst e; exact ⟨a, upd_same _ _ _, upd_same _ _ _⟩
          · next e =>
            obtain ⟨b, h1, h2⟩ := hi.liveBound k hk
            refine ⟨b, by show upd _ _ _ _ = _; rw [upd_other _ _ e]; exact h1, ?_⟩
            show upd _ _ _ _ = _
            rw [upd_other _ _ (fun e => by rw [e, hb] at h2; cases h2)]; exact h2
        · intro p k hk
          simp only [upd_apply] at hk
          show upd _ _ _ _ = _
          split at hk
          · cases hk; exact upd_same _ _ _
          · have := (hi.boundLt _ _ hk).1
            rw [upd_other _ _ (hlt _ this)]; exact hi.portLive p k hk
        · intro c b k hk
          obtain ⟨h1, h2, b', h3, h4⟩ := hi.connOk c b k hk
          exact ⟨h1, Nat.lt_succ_of_lt h2, b', by show upd _ _ _ _ = _; rw [upd_other _ _ (hlt _ h2)]; exact h3, h4⟩
        · intro k hk
          have hk : s.nextTok + 1 ≤ k := hk
          obtain ⟨h1, h2⟩ := hi.madeLt k (by omega)
          exact ⟨by show upd _ _ _ _ = _; rw [upd_other _ _ (by omega)]; exact h1, h2⟩
        · intro k
          by_cases e : k = s.nextTok
          · subst e
            obtain ⟨h1, h2, h3, h4⟩ := hi.madeLt s.nextTok (Nat.le_refl _)
            exact ⟨[], by show s.made _ = s.acc _ ++ s.queue _ ++ []; rw [h2, h3, h4]; rfl, fun _ => rfl⟩
          · obtain ⟨l, h1, h2⟩ := hi.fifo k
            refine ⟨l, h1, fun hl => h2 ?_⟩
            have hl : upd s.live s.nextTok true k = true := hl
            rwa [upd_other _ _ e] at hl
        · intro k hk
          by_cases e : k = s.nextTok
          · subst e; exact (hi.madeLt _ (Nat.le_refl _)).2.2.2
          · have hl : upd s.live s.nextTok true k = false := hk
            rw [upd_other _ _ e] at hl
            exact hi.dead k hl
    · cases hs
  | close o =>
    simp only [step] at hs
    split at hs <;> cases hs
    next v hv =>
    have hne : ∀ o' v', o' ≠ o → s.srv o' = some v' → v'.tok ≠ v.tok := fun o' v' hn h e => hn (hi.srvInj _ _ _ _ h hv e)
    refine ⟨?_, ?_, ?_, ?_, ?_, ?_, hi.connOk, hi.madeConn, ?_, hi.sorted, ?_, ?_⟩
    · intro o' v' h
      simp only [upd_apply] at h
      split at h
      · cases h
      · next e =>
        obtain ⟨h1, h2⟩ := hi.srvLt o' v' h
        exact ⟨h1, by show upd _ _ _ _ = _; rw [upd_other _ _ (hne o' v' e h)]; exact h2⟩
    · intro o1 o2 v1 v2 h1 h2 e
      simp only [upd_apply] at h1 h2
      split at h1
      · cases h1
      · split at h2
        · cases h2
        · exact hi.srvInj _ _ _ _ h1 h2 e
    · intro k hk
      simp only [upd_apply] at hk
      split at hk
      · cases hk
      · next e =>
        obtain ⟨o', v', h1, h2⟩ := hi.liveSrv k hk
        refine ⟨o', v', ?_, h2⟩
        show upd _ _ _ _ = _
        rw [upd_other _ _ (fun e' => by subst e'; rw [hv] at h1; cases h1; exact e h2.symm)]; exact h1
    · intro n k hk
      simp only at hk
      split at hk
      · cases hk
      · exact hi.boundLt n k hk
    · intro k hk
      simp only [upd_apply] at hk
      split at hk
      · cases hk
      · next e =>
        obtain ⟨b, h1, h2⟩ := hi.liveBound k hk
        refine ⟨b, h1, ?_⟩
        show (if _ then _ else _) = _
        rw [if_neg (fun h => e (by rw [h2] at h; exact Option.some.inj h.1))]; exact h2
    · intro p k hk
      simp only at hk
      split at hk
      · cases hk
      · next e =>
        have hne : k ≠ v.tok := fun h => e ⟨by rw [hk, h], rfl⟩
        show upd _ _ _ _ = _
        rw [upd_other _ _ hne]; exact hi.portLive p k hk
    · intro k hk
      obtain ⟨h1, h2, h3, h4⟩ := hi.madeLt k hk
      refine ⟨?_, h2, h3, ?_⟩
      · show upd _ _ _ _ = _
        simp only [upd_apply]; split
        · rfl
        · exact h1
      · show upd _ _ _ _ = _
        simp only [upd_apply]; split
        · rfl
        · exact h4
    · intro k
      obtain ⟨l, h1, h2⟩ := hi.fifo k
      by_cases e : k = v.tok
      · subst e
        refine ⟨s.queue v.tok ++ l, ?_, fun h => ?_⟩
        · show s.made _ = s.acc _ ++ upd _ _ _ _ ++ _
          rw [upd_same, h1]; simp
        · have h : upd s.live v.tok false v.tok = true := h
          rw [upd_same] at h; cases h
      · refine ⟨l, ?_, fun h => h2 ?_⟩
        · show s.made _ = s.acc _ ++ upd _ _ _ _ ++ _
          rw [upd_other _ _ e]; exact h1
        · have h : upd s.live v.tok false k = true := h
          rwa [upd_other _ _ e] at h
    · intro k hk
      show upd _ _ _ _ = _
      by_cases e : k = v.tok
      · subst e; exact upd_same _ _ _
      · have hk : upd s.live v.tok false k = false := hk
        rw [upd_other _ _ e] at hk ⊢
        exact hi.dead k hk
  | connect a =>
    simp only [step] at hs
    split at hs
    · next k hb =>
      split at hs
      · next hl =>
        split at hs <;> cases hs
        obtain ⟨hk, b, hb1, hb2⟩ := hi.boundLt _ _ hb
        refine ⟨hi.srvLt, hi.srvInj, hi.liveSrv, hi.boundLt, hi.liveBound, hi.portLive, ?_, ?_, ?_, ?_, ?_, ?_⟩
        · intro c a' k' h
          simp only [upd_apply] at h
          split at h
          · next e => cases h; subst e; exact ⟨Nat.lt_succ_self _, hk, b, hb1, hb2⟩
          · obtain ⟨h1, h2⟩ := hi.connOk c a' k' h
            exact ⟨Nat.lt_succ_of_lt h1, h2⟩
        · intro k' c hc
          have old : ∀ k', c ∈ s.made k' → ∃ a', upd s.conn s.nextConn (some (a, k)) c = some (a', k') := by
            intro k' h
            obtain ⟨a', h1⟩ := hi.madeConn k' c h
            have := (hi.connOk _ _ _ h1).1
            exact ⟨a', by rw [upd_other _ _ (by omega)]; exact h1⟩
          simp only [upd_apply] at hc
          split at hc
          · next e =>
            subst e
            rcases List.mem_append.mp hc with h | h
            · exact old _ h
            · have : c = s.nextConn := by simpa using h
              subst this
              exact ⟨a, upd_same _ _ _⟩
          · exact old _ hc
        · intro k' hk'
          have e : k' ≠ k := fun e => by subst e; exact absurd hk' (Nat.not_le.mpr hk)
          obtain ⟨h1, h2, h3, h4⟩ := hi.madeLt k' hk'
          exact ⟨h1, by show upd _ _ _ _ = _; rw [upd_other _ _ e]; exact h2, h3, by show upd _ _ _ _ = _; rw [upd_other _ _ e]; exact h4⟩
        · intro k'
          show List.Pairwise _ (upd _ _ _ _)
          simp only [upd_apply]
          split
          · rw [List.pairwise_append]
            refine ⟨hi.sorted k, by simp, ?_⟩
            intro c hc c' hc'
            have : c' = s.nextConn := by simpa using hc'
            subst this
            obtain ⟨a', h1⟩ := hi.madeConn k c hc
            exact (hi.connOk _ _ _ h1).1
          · exact hi.sorted k'
        · intro k'
          obtain ⟨l, h1, h2⟩ := hi.fifo k'
          by_cases e : k' = k
          · subst e
            have := h2 hl
            subst this
            refine ⟨[], ?_, fun _ => rfl⟩
            show upd _ _ _ _ = s.acc _ ++ upd _ _ _ _ ++ _
            rw [upd_same, upd_same, h1]; simp
          · refine ⟨l, ?_, h2⟩
            show upd _ _ _ _ = s.acc _ ++ upd _ _ _ _ ++ _
            rw [upd_other _ _ e, upd_other _ _ e]; exact h1
        · intro k' h
          show upd _ _ _ _ = _
          by_cases e : k' = k
          · subst e
            have h : s.live k' = false := h
            rw [hl] at h; cases h
          · rw [upd_other _ _ e]; exact hi.dead k' h
      · cases hs; exact { hi with }
    · cases hs; exact { hi with }
  | accept o sel =>
    simp only [step] at hs
    split at hs
    · next v hv =>
      split at hs
      · cases hs; exact { hi with }
      · have take : ∀ c rest, s.queue v.tok = c :: rest →
            Inv { s with queue := upd s.queue v.tok rest, acc := upd s.acc v.tok (s.acc v.tok ++ [c]), out := s.out ++ [.accepted o c] } := by
          intro c rest hq
          have hlt := (hi.srvLt _ _ hv).1
          refine ⟨hi.srvLt, hi.srvInj, hi.liveSrv, hi.boundLt, hi.liveBound, hi.portLive, hi.connOk, hi.madeConn, ?_, hi.sorted, ?_, ?_⟩
          · intro k hk
            have e : k ≠ v.tok := fun e => by subst e; exact absurd hk (Nat.not_le.mpr hlt)
            obtain ⟨h1, h2, h3, h4⟩ := hi.madeLt k hk
            exact ⟨h1, h2, by show upd _ _ _ _ = _; rw [upd_other _ _ e]; exact h3, by show upd _ _ _ _ = _; rw [upd_other _ _ e]; exact h4⟩
          · intro k
            obtain ⟨l, h1, h2⟩ := hi.fifo k
            refine ⟨l, ?_, h2⟩
            show s.made k = upd _ _ _ _ ++ upd _ _ _ _ ++ _
            by_cases e : k = v.tok
            · subst e; rw [upd_same, upd_same, h1, hq]; simp
            · rw [upd_other _ _ e, upd_other _ _ e]; exact h1
          · intro k hk
            show upd _ _ _ _ = _
            by_cases e : k = v.tok
            · subst e
              have hk : s.live v.tok = false := hk
              rw [(hi.srvLt _ _ hv).2] at hk; cases hk
            · rw [upd_other _ _ e]; exact hi.dead k hk
        split at hs
        · cases hs
        · cases hs
        · cases hs; exact { hi with }
        · next hq => cases hs; exact take _ _ hq
        · cases hs; exact { hi with }
    · cases hs

theorem Reach.inv {s : St} (h : Reach s) : Inv s := by
  induction h with
  | init => exact init_inv
  | step _ hs ih => exact inv_step ih hs

/-! ### The right server -/

/-- **C68** (the right server), every history: a client reaches a server created for the same address, if both addresses fit.
Missing: addresses that do not fit (C68_violation_long_path, C68_violation_port). -/
theorem C68_right_server_partial {s : St} (h : Reach s) {c k : Nat} {a b : Addr} (hc : s.conn c = some (a, k)) (hk : s.asked k = some b)
    (ha : a.Fits) (hb : b.Fits) : a = b := by
  obtain ⟨_, _, b', h1, h2⟩ := h.inv.connOk c a k hc
  rw [hk] at h1
  cases h1
  exact (C68_names_differ hb ha h2).symm

/-- **C68** (one server): two servers that exist at the same time and whose addresses fit have different addresses.
Missing: as above. -/
theorem C68_one_server_partial {s : St} (h : Reach s) {o o' : Nat} {v v' : Srv} {a : Addr} (ho : s.srv o = some v) (ho' : s.srv o' = some v')
    (ha : s.asked v.tok = some a) (ha' : s.asked v'.tok = some a) : o = o' := by
  have hi := h.inv
  obtain ⟨b, h1, h2⟩ := hi.liveBound v.tok (hi.srvLt _ _ ho).2
  obtain ⟨b', h1', h2'⟩ := hi.liveBound v'.tok (hi.srvLt _ _ ho').2
  rw [ha] at h1; cases h1
  rw [ha'] at h1'; cases h1'
  rw [h2] at h2'
  exact hi.srvInj _ _ _ _ ho ho' (Option.some.inj h2')

/-- **C68** (a free port can be used): creating a server for a port fails only if a server for it exists.
Missing: paths (C68_violation_restart). -/
theorem C68_port_available_partial {s s' : St} (h : Reach s) {o fd : Nat} {p : Int} (hp : (Addr.port p).Fits)
    (hfree : ∀ o' v b, s.srv o' = some v → s.asked v.tok = some b → b.Fits ∧ b ≠ .port p)
    (hs : step s (.server o (.port p) fd) = some s') : s'.out = s.out ++ [.created o] ∧ ∃ v, s'.srv o = some v ∧ s'.asked v.tok = some (.port p) := by
  have hi := h.inv
  simp only [step] at hs
  split at hs
  · split at hs
    · next k hk =>
      exfalso
      obtain ⟨o', v, h1, h2⟩ := hi.liveSrv k (hi.portLive _ _ hk)
      obtain ⟨_, b, h3, h4⟩ := hi.boundLt _ _ hk
      obtain ⟨h5, h6⟩ := hfree o' v b h1 (by rw [h2]; exact h3)
      exact h6 (C68_names_differ h5 hp h4)
    · cases hs
      exact ⟨rfl, _, upd_same _ _ _, upd_same _ _ _⟩
  · cases hs

/-- Two paths that agree in their first 107 bytes are one. -/
theorem C68_violation_long_path {p q : List Nat} (hp : ∀ x ∈ p, x ≠ 0) (hq : ∀ x ∈ q, x ≠ 0) (h : p.take 107 = q.take 107) :
    (Addr.path p).name = (Addr.path q).name := by
  have key : ∀ r : List Nat, (∀ x ∈ r, x ≠ 0) → r.takeWhile (· ≠ 0) = r := by
    intro r h0
    exact takeWhile_all h0
  simp only [Addr.name, sunPath, Nat.add_one_sub_one, key p hp, key q hq, h]

/-- A client asks for one server and is connected to another one, whose path is the same up to byte 107. -/
theorem C68_violation_wrong_server :
    (run .init [.server 0 (.path (List.replicate 110 65)) 3, .connect (.path (List.replicate 109 65 ++ [66])), .accept 0 .ready]).map (fun s =>
      (s.out, (s.conn 0).map (fun x => decide (x.1 = .path (List.replicate 110 65))), s.asked 0 == some (.path (List.replicate 110 65)))) =
    some ([.created 0, .connected 0, .accepted 0 0], some false, true) := by decide +kernel

/-- Ports are taken modulo 65536: a server for port 70000 is one for port 4464. -/
theorem C68_violation_port : (run .init [.server 0 (.port 70000) 3, .connect (.port 4464), .server 1 (.port 4464) 4]).map (fun s => (s.out, s.conn 0)) =
    some ([.created 0, .connected 0, .bindFailed 1], some (.port 4464, 0)) := by decide +kernel

/-- A server for a path is closed and cannot be created again: its name stays in the file system.  This holds for every path. -/
theorem C68_violation_restart {s s1 s2 : St} {o o' fd fd' : Nat} {p : List Nat} (ho : s.srv o = none) (hb : s.bound (Addr.path p).name = none)
    (h1 : (run s [.server o (.path p) fd, .close o]) = some s1) (h2 : step s1 (.server o' (.path p) fd') = some s2) :
    s2.out = s1.out ++ [.bindFailed o'] := by
  have hn : (Addr.path p).name ≠ .port 0 := by simp [Addr.name]
  simp only [run, step, ho, hb, Option.bind, and_self, if_true, hn, ne_eq, not_false_eq_true, upd_same] at h1
  cases h1
  simp only [step, hn, ne_eq, not_false_eq_true, and_true] at h2
  split at h2
  · have hst : (Addr.path p).name.stays = true := rfl
    simp only [upd_same, hst] at h2
    simp at h2
    cases h2
    simp
  · cases h2

theorem C68_example_restart : (run .init [.server 0 (.path [47, 97]) 3, .close 0, .server 0 (.path [47, 97]) 3, .connect (.path [47, 97])]).map (fun s => s.out) =
    some [.created 0, .bindFailed 0, .refused (.path [47, 97])] := by decide +kernel

/-! ### `accept` -/

/-- **C68** (accept), every history: a server accepts the connections made to it, each once and in the order in which they were made; while it exists
the others wait. -/
theorem C68_accept_in_order {s : St} (h : Reach s) (k : Nat) :
    (∃ lost, s.made k = s.acc k ++ s.queue k ++ lost ∧ (s.live k = true → lost = [])) ∧ (s.made k).Pairwise (· < ·) :=
  ⟨h.inv.fifo k, h.inv.sorted k⟩

/-- A connection accepted was made to the server that accepted it. -/
theorem C68_accept_own {s s' : St} (h : Reach s) {o : Nat} {sel : Sel} (hs : step s (.accept o sel) = some s') {c : Nat}
    (hout : s'.out = s.out ++ [.accepted o c]) : ∃ v a, s.srv o = some v ∧ s.conn c = some (a, v.tok) ∧ s'.acc v.tok = s.acc v.tok ++ [c] := by
  simp only [step] at hs
  split at hs
  · next v hv =>
    split at hs
    · cases hs; simp at hout
    · split at hs
      · cases hs
      · cases hs
      · cases hs; simp at hout
      · next c' rest _ hq =>
        cases hs
        have : c' = c := by simpa using hout
        subst this
        obtain ⟨l, h1, _⟩ := h.inv.fifo v.tok
        obtain ⟨a, h2⟩ := h.inv.madeConn v.tok c' (by rw [h1, hq]; simp)
        exact ⟨v, a, hv, h2, upd_same _ _ _⟩
      · cases hs; simp at hout
  · cases hs

/-- **C68** (accept returns): whatever `select` reports, `accept` comes back at once: it never blocks after the timeout; it reports a timeout only if no connection is
waiting, and takes a waiting one otherwise. -/
theorem C68_accept_returns {s : St} {o : Nat} {v : Srv} (ho : s.srv o = some v) (hfd : v.fd < fdSetSize) :
    (s.queue v.tok = [] → ∃ s', step s (.accept o .timeout) = some s' ∧ s'.out = s.out ++ [.timedOut o]) ∧
    (∀ c rest, s.queue v.tok = c :: rest → step s (.accept o .timeout) = none ∧
      ∀ sel, sel ≠ .timeout → ∃ s', step s (.accept o sel) = some s' ∧ s'.out = s.out ++ [.accepted o c] ∧ s'.queue v.tok = rest) := by
  have hn : ¬ fdSetSize ≤ v.fd := by omega
  refine ⟨fun hq => ?_, fun c rest hq => ⟨?_, fun sel hsel => ?_⟩⟩
  · exact ⟨_, by simp only [step, ho, if_neg hn, hq]; rfl, rfl⟩
  · simp only [step, ho, if_neg hn, hq]
  · refine ⟨{ s with queue := upd s.queue v.tok rest, acc := upd s.acc v.tok (s.acc v.tok ++ [c]), out := s.out ++ [.accepted o c] }, ?_, rfl, upd_same _ _ _⟩
    cases sel with
    | ready => simp only [step, ho, if_neg hn, hq]
    | timeout => exact absurd rfl hsel
    | error => simp only [step, ho, if_neg hn, hq]

/-- The result of `select` is not looked at: after a signal `accept` reports an error before the time is over although nothing is wrong. -/
theorem C68_violation_signal {s : St} {o : Nat} {v : Srv} (ho : s.srv o = some v) (hfd : v.fd < fdSetSize) (hq : s.queue v.tok = []) :
    ∃ s', step s (.accept o .error) = some s' ∧ s'.out = s.out ++ [.again o] := by
  have hn : ¬ fdSetSize ≤ v.fd := by omega
  exact ⟨_, by simp only [step, ho, if_neg hn, hq]; rfl, rfl⟩

/-- A server with a descriptor beyond 1023 writes outside the `fd_set` in every call of `accept`. -/
theorem C68_violation_descriptor {s s' : St} {o : Nat} {v : Srv} {sel : Sel} (ho : s.srv o = some v) (hfd : fdSetSize ≤ v.fd)
    (hs : step s (.accept o sel) = some s') : s'.out = s.out ++ [.undefined o] := by
  simp only [step, ho, if_pos hfd] at hs
  cases hs; rfl

/-! ### Failed constructors -/

/-- **C68** fails: whatever the reason for which `bind`, `listen` or `connect` fails, the exception does not report it as such: `close()` throws first. -/
theorem C68_violation_report (e : Errno) : failReport e ≠ .call e := by
  cases e <;> simp [failReport, closeError]

/-- The failed constructor closes its descriptor, throws out of `close()` with the number still in the object, and the destructor of the base closes the number again:
by then it may belong to another thread. -/
theorem C68_violation_closed_twice (n : Nat) :
    ((Socket.run (Socket.St.init (.other 0)) [.construct 0 5, .setErrno (.other n), .callClose 0, .sysClose 0 none, .otherOpen 5, .destroy 0, .sysClose 0 none]).map
      (fun s => (s.table 5, s.stolen, s.result 0))) = some (none, true, some (.threw .runtime)) := by
  rfl

/-- A connection to a listening server is queued whenever at most 5 others are waiting, and not otherwise. -/
theorem C68_backlog {s : St} {a : Addr} {k : Nat} (hb : s.bound a.name = some k) (hl : s.live k = true) :
    (step s (.connect a)).isSome = true ↔ (s.queue k).length ≤ 5 := by
  simp only [step, hb, hl, if_true]
  have e : backlog = 5 := rfl
  rw [e]
  split
  · next h => simp [h]
  · next h => simp [h]

/-- A server accepts the two waiting connections, the second after a transient error; a refused client; a time-out. -/
theorem C68_example : (run .init [.server 0 (.port 80) 3, .connect (.port 80), .connect (.port 80), .connect (.port 81), .accept 0 .ready, .accept 0 .error,
    .accept 0 .timeout]).map (fun s => s.out) =
    some [.created 0, .connected 0, .connected 1, .refused (.port 81), .accepted 0 0, .accepted 0 1, .timedOut 0] := by decide +kernel

end Verif.Endpoint
