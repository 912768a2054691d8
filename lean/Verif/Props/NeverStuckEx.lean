import Mathlib.Tactic.ByContra
import Verif.Props.NeverStuck
import Verif.Props.NeverStuckMem
import Verif.Props.NeverStuckDispatch
import Verif.Props.MuxLive
import Verif.Props.Live
import Verif.Props.LoopLive
import Verif.Props.MemLive
import Verif.Props.CqLive
import Verif.Props.ElDispatchLive
import Verif.Props.ElSchedLive
import Verif.Props.MuxDispatchLive

/-! Concrete states that meet the hypotheses of C90: everybody is in the middle of something. -/

namespace Verif.Mux

/-- A subscriber in the middle of a batch, and a publisher in the middle of a call. -/
theorem C90_example : ∃ s : St Nat, Reach false 1 (fun _ => True) 0 s ∧ (s.pc matches .idle) = false ∧ s.ring.cp 0 ≠ .idle ∧ 0 ∈ s.ring.gating ∧ s.done = 1 := by
  have hx : (runOk false 1 (St.init 0) [.subscribe 0, .run 0, .call (.fresh 5), .write, .publish, .look 0, .call (.fresh 7)]).map
      (fun s => ((s.pc matches .idle : Bool), decide (s.ring.cp 0 ≠ .idle), decide (0 ∈ s.ring.gating), s.done)) = some (false, true, true, 1) := by decide +kernel
  obtain ⟨s, hs, he⟩ := Option.map_eq_some_iff.mp hx
  simp only [Prod.mk.injEq, decide_eq_true_eq] at he
  exact ⟨s, Reach.of_runOk _ .init hs, he.1, he.2.1, he.2.2.1, he.2.2.2⟩

end Verif.Mux

namespace Verif.Chain

/-- A producer that waits for a slot, and the processor it waits for. -/
theorem C90_example : Reach exCfg 0 (exSt 7) ∧ (exSt 7).late = false ∧ (exSt 7).pp ≠ .idle ∧ (exSt 7).cp 0 ≠ .idle :=
  ⟨C71_example.1.reach 7, C71_example.1.late 7, by decide +kernel, by decide +kernel⟩

end Verif.Chain

namespace Verif.EvLoop

/-- A publisher that has not got a sequence yet, and a loop that waits. -/
theorem C90_example : Reach 0 (fun _ _ => True) (ex 4) ∧ Below (ex 4) ∧ (ex 4).pc 3 = .claiming "t" 7 ∧ (ex 4).ring.cp 0 ≠ .idle := by
  refine ⟨ex_run.reach 4, ⟨[3], ?_, by decide +kernel⟩, by decide +kernel, by decide +kernel⟩
  intro p t d h
  by_cases hp : p = 3
  · simp [hp]
  · have : (ex 4).pc = upd (fun _ => .idle) 3 (.claiming "t" 7) := by rfl
    rw [this, upd_other _ _ hp] at h
    cases h

end Verif.EvLoop

namespace Verif.MemP

/-- A publisher that waits for a place, and has been woken, on a queue that the poller has just emptied. -/
theorem C90_example : ∃ s : St Nat, Reach false 1 s ∧ s.alive = true ∧ s.bm.sq.knf ≠ [] ∧ s.waiting = [(2, 20)] ∧ s.came = [10] := by
  obtain ⟨s, h1, h2⟩ : ∃ s, run false (St.init 1) [.bm (.publish 1 10 0), .bm (.publish 2 20 0), .bm (.poll 5 0)] = some s ∧
      s.alive = true ∧ s.bm.sq.knf ≠ [] ∧ s.waiting = [(2, 20)] ∧ s.came = [10] := ⟨_, rfl, rfl, by decide, rfl, rfl⟩
  exact ⟨s, run_reach .init _ h1, h2⟩

end Verif.MemP

namespace Verif.CqP

/-- A publisher whose event has been refused by the queue at the first attempt, with an event of another thread in the queue. -/
theorem C90_example : ∃ s : St Nat, Reach false s ∧ Alone s ∧ s.alive = true ∧ s.Trying 2 20 ∧ s.cq.q = [10] := by
  have hr : Run false (follow false liveActs (.cq (.poll false))) (fun i => some (liveActs.getD i (.cq (.poll false)))) := live_run
  refine ⟨_, hr.reach 4, ?_, rfl, ⟨0, .inl rfl⟩, rfl⟩
  have e : (follow false liveActs (.cq (.poll false)) 4).cq.pc = upd (upd (upd (upd (fun _ => .idle) 1 (.enq 10 0)) 1 .idle) 2 (.enq 20 0)) 2 (.enq 20 0) := by rfl
  have key : ∀ t x, (follow false liveActs (.cq (.poll false)) 4).Trying t x → t = 2 := by
    intro t x ⟨n, h⟩
    rw [e] at h
    by_contra ht
    rw [upd_other _ _ ht, upd_other _ _ ht] at h
    by_cases h1 : t = 1
    · subst h1; simp [upd] at h
    · rw [upd_other _ _ h1, upd_other _ _ h1] at h; simp at h
  intro t u x y h1 h2
  rw [key t x h1, key u y h2]

end Verif.CqP

namespace Verif.MemD

/-- A polling thread with an event in its queue and a listener. -/
theorem C90_example : ∃ s : St ((Mdlw.basic false 2).chan Nat), Reach "e" true .safe s ∧ ((Mdlw.basic false 2).chan Nat).may s.ch ∧ ((Mdlw.basic false 2).chan Nat).alive s.ch = true ∧
    (Mdlw.basic false 2).accepted s.ch = [10, 11] ∧ gets 0 s.hist = [] := by
  obtain ⟨σ, α, h1, h2, h3, h4, h5, h6⟩ := C81_example_delivered_basic
  exact ⟨σ 3, h1.reach 3, h1.may 3, h2.running, h4, h5⟩

end Verif.MemD

namespace Verif.ElD

/-- A publisher that has not got a sequence yet, and a loop with a listener. -/
theorem C90_example : Reach 1 false .safe OkDrained (lv 4) ∧ EvLoop.Below (lv 4).loop ∧ (lv 4).loop.pc 1 = .claiming "a" (.ev 10) ∧ (lv 4).loop.ring.cp 0 ≠ .idle := by
  refine ⟨lv_run.reach 4, ⟨[1], ?_, by decide +kernel⟩, by decide +kernel, by decide +kernel⟩
  intro p t d h
  by_cases hp : p = 1
  · simp [hp]
  · have : (lv 4).loop.pc = upd (fun _ => .idle) 1 (.claiming "a" (.ev 10)) := by rfl
    rw [this, upd_other _ _ hp] at h
    cases h

end Verif.ElD

namespace Verif.ElS

/-- A task that fires: its thread has not got a sequence yet; and a loop that waits. -/
theorem C90_example : Reach 1 false .safe (lv 4) ∧ NotWaiting (lv 4) ∧ EvLoop.Below (lv 4).el.loop ∧ (lv 4).el.loop.pc 1 = .claiming "EVENTLOOP_SCHEDULER" (.fn 0) ∧
    (lv 4).el.loop.ring.cp 0 ≠ .idle := by
  refine ⟨lv_run.reach 4, ⟨by decide +kernel, .inl (by decide +kernel)⟩, ⟨[1], ?_, by decide +kernel⟩, by decide +kernel, by decide +kernel⟩
  intro p t d h
  by_cases hp : p = 1
  · simp [hp]
  · have : (lv 4).el.loop.pc = upd (fun _ => .idle) 1 (.claiming "EVENTLOOP_SCHEDULER" (.fn 0)) := by rfl
    rw [this, upd_other _ _ hp] at h
    cases h

end Verif.ElS

namespace Verif.MuxD

/-- A subscriber with a listener and two events to deliver. -/
theorem C90_example : MemD.Reach "m" true .safe (lv 8) ∧ (mux (lv 8)).ring.cp 0 ≠ .idle ∧ (mux (lv 8)).ring.cursor = 1 :=
  ⟨MemD.Run.reach lv_run 8, by decide +kernel, by decide +kernel⟩

end Verif.MuxD
