import Verif.Model.Container
import Mathlib.Data.List.Induction

/-! Properties of the container (C42): every history of API calls. -/

namespace Verif.Cont
open Verif

theorem eraseName_eq_erase {l : List Item} {x : Item} (h : ∀ y ∈ l, y.name = x.name → y = x) : eraseName l x.name = l.erase x := by
  unfold eraseName
  induction l with
  | nil => rfl
  | cons a l ih =>
    by_cases ha : a = x
    · subst ha; simp
    · have hn : ¬ a.name = x.name := fun e => ha (h a (List.mem_cons_self ..) e)
      have : ((a :: l).erase x) = a :: l.erase x := by rw [List.erase_cons_tail]; simpa using ha
      rw [this, List.eraseP_cons_of_neg (by simpa using hn), ih (fun y hy => h y (List.mem_cons_of_mem _ hy))]

theorem run_append (ops : List Op) (o : Op) : run (ops ++ [o]) = apply (run ops) o := by simp [run]

theorem held_append (k : Kind) (ops : List Op) (o : Op) : held k (ops ++ [o]) = heldStep k (held k ops) o := by simp [held]

theorem services_append (ops : List Op) (o : Op) : services (ops ++ [o]) = servicesStep (services ops) o := by simp [services]

theorem held_mem {k : Kind} {ops : List Op} {x : Item} (h : x ∈ held k ops) : x ∈ ops.flatMap (mentions k) := by
  induction ops using List.reverseRecOn with
  | nil => simp [held] at h
  | append_singleton ops o ih =>
    rw [held_append] at h
    rw [List.flatMap_append, List.mem_append]
    have mono : ∀ {y}, x ∈ (held k ops).erase y → x ∈ ops.flatMap (mentions k) := fun h => ih (List.mem_of_mem_erase h)
    cases o with
    | start => exact .inl (ih h)
    | stop => exact .inl (ih h)
    | attachService y =>
      simp only [heldStep] at h
      split at h
      · next hk =>
        rcases List.mem_append.mp h with h | h
        · exact .inl (ih h)
        · exact .inr (by simpa [mentions, hk] using h)
      · exact .inl (ih h)
    | detachService y =>
      simp only [heldStep] at h
      split at h
      · exact .inl (mono h)
      · exact .inl (ih h)
    | attach j y =>
      simp only [heldStep] at h
      split at h
      · next hk =>
        rcases List.mem_append.mp h with h | h
        · exact .inl (ih h)
        · exact .inr (by simpa [mentions, hk] using h)
      · exact .inl (ih h)
    | detach j y =>
      simp only [heldStep] at h
      split at h
      · exact .inl (mono h)
      · exact .inl (ih h)

theorem services_sub {ops : List Op} {x : Item} (h : x ∈ services ops) : x ∈ ops.flatMap (mentions .service) := by
  induction ops using List.reverseRecOn with
  | nil => simp [services] at h
  | append_singleton ops o ih =>
    rw [services_append] at h
    rw [List.flatMap_append, List.mem_append]
    cases o with
    | attachService y =>
      rcases List.mem_append.mp h with h | h
      · exact .inl (ih h)
      · exact .inr (by simpa [mentions] using h)
    | detachService y => exact .inl (ih (List.mem_of_mem_erase h))
    | _ => exact .inl (ih h)

theorem NamesDistinct.init {k : Kind} {ops : List Op} {o : Op} (h : NamesDistinct k (ops ++ [o])) : NamesDistinct k ops := by
  intro x y hx hy
  exact h x y (by rw [List.flatMap_append]; exact List.mem_append_left _ hx) (by rw [List.flatMap_append]; exact List.mem_append_left _ hy)

theorem NamesDistinct.last {k : Kind} {ops : List Op} {o : Op} (h : NamesDistinct k (ops ++ [o])) {l : List Item} {x : Item}
    (hl : ∀ y ∈ l, y ∈ ops.flatMap (mentions k)) (hx : x ∈ mentions k o) : eraseName l x.name = l.erase x := by
  refine eraseName_eq_erase (fun y hy he => h y x ?_ ?_ he)
  · rw [List.flatMap_append]; exact List.mem_append_left _ (hl y hy)
  · rw [List.flatMap_append]; exact List.mem_append_right _ (by simpa using hx)

/-- **C42**, for service, function and subscription statistics: if names identify the statistics, the container holds after any history exactly
those attached and not detached, in the order attached; and detaching one removes only that one.  Missing: statistics with equal names, and
publication statistics, where it fails (below). -/
theorem C42_holds_attached_partial {k : Kind} (hk : k ≠ .publication) {ops : List Op} (hv : ∀ o ∈ ops, Valid o) (hn : NamesDistinct k ops) :
    (run ops).stats k = held k ops := by
  induction ops using List.reverseRecOn with
  | nil => rfl
  | append_singleton ops o ih =>
    have ih := ih (fun p hp => hv p (List.mem_append_left _ hp)) hn.init
    have hvo := hv o (by simp)
    have hmem : ∀ y ∈ held k ops, y ∈ ops.flatMap (mentions k) := fun y hy => held_mem hy
    rw [run_append, held_append]
    cases o with
    | start => exact ih
    | stop => exact ih
    | attachService x =>
      simp only [apply, attachStats, setK, heldStep]
      split
      · next e => rw [← e, ih]
      · exact ih
    | detachService x =>
      simp only [apply, setK, heldStep]
      split
      · next e => rw [← e, ih]; exact hn.last hmem (by simp [mentions, e])
      · exact ih
    | attach j x =>
      simp only [apply, attachStats, setK, heldStep]
      by_cases e : j = k
      · subst e; simp [ih]
      · have e' : ¬ k = j := fun h => e h.symm
        simp [e, e', ih]
    | detach j x =>
      cases j with
      | service => exact absurd hvo (fun h => h)
      | publication =>
        have e' : ¬ Kind.publication = k := fun h => hk h.symm
        simp [apply, setK, heldStep, hk, e', ih]
      | function =>
        by_cases e : Kind.function = k
        · subst e; simp only [apply, setK, heldStep, if_true]; rw [ih]; exact hn.last hmem (by simp [mentions])
        · have e' : ¬ k = Kind.function := fun h => e h.symm
          simp [apply, setK, heldStep, e, e', ih]
      | subscription =>
        by_cases e : Kind.subscription = k
        · subst e; simp only [apply, setK, heldStep, if_true]; rw [ih]; exact hn.last hmem (by simp [mentions])
        · have e' : ¬ k = Kind.subscription := fun h => e h.symm
          simp [apply, setK, heldStep, e, e', ih]

/-- **C42**: the same for the services.
Missing: services with equal names, where it fails (`C42_violation_other_service`). -/
theorem C42_holds_services_partial {ops : List Op} (hn : NamesDistinct .service ops) : (run ops).managed = services ops := by
  induction ops using List.reverseRecOn with
  | nil => rfl
  | append_singleton ops o ih =>
    have ih := ih hn.init
    rw [run_append, services_append]
    cases o with
    | start => exact ih
    | stop => exact ih
    | attachService x => simp only [apply, attachStats, servicesStep, ih]
    | detachService x =>
      simp only [apply, servicesStep, ih]
      exact hn.last (fun y hy => services_sub hy) (by simp [mentions])
    | attach j x => exact ih
    | detach j x => cases j <;> exact ih

/-- **C42**, publication statistics, as long as none is detached.
Missing: detaching one, which detaches nothing (`C42_violation_publications`). -/
theorem C42_holds_publications_partial {ops : List Op} (hd : ∀ x, .detach .publication x ∉ ops) : (run ops).stats .publication = held .publication ops := by
  induction ops using List.reverseRecOn with
  | nil => rfl
  | append_singleton ops o ih =>
    have ih := ih (fun x hx => hd x (List.mem_append_left _ hx))
    rw [run_append, held_append]
    cases o with
    | start => exact ih
    | stop => exact ih
    | attachService x => simp [apply, attachStats, setK, heldStep, ih]
    | detachService x => simp [apply, setK, heldStep, ih]
    | attach j x => cases j <;> simp [apply, attachStats, setK, heldStep, ih]
    | detach j x =>
      cases j with
      | publication => exact absurd (by simp) (hd x)
      | _ => simp [apply, setK, heldStep, ih]

/-- **C42**: before the first `start` no statistics is started, whatever is attached or detached. -/
theorem C42_not_started_before_start (ops : List Op) (h : .start ∉ ops) (k : Kind) (x : Item) :
    (run ops).running = false ∧ (run ops).started k x = false := by
  induction ops using List.reverseRecOn with
  | nil => exact ⟨rfl, rfl⟩
  | append_singleton ops o ih =>
    obtain ⟨h1, h2⟩ := ih (fun hm => h (List.mem_append_left _ hm))
    rw [run_append]
    cases o with
    | start => exact absurd (by simp) h
    | stop => simp [apply, h2]
    | attachService y => simp [apply, attachStats, h1, h2]
    | detachService y => simp [apply, h1, h2]
    | attach j y => simp [apply, attachStats, h1, h2]
    | detach j y => cases j <;> simp [apply, h1, h2]

/-- **C42**: while the container runs every statistics it holds is started, also those attached after the start; and `stop` stops those it
holds.  Every history, without restriction on names. -/
theorem C42_started_while_running (ops : List Op) :
    ((run ops).running = true → ∀ k, ∀ x ∈ (run ops).stats k, (run ops).started k x = true) ∧
    (∀ k, ∀ x ∈ (run ops).stats k, (run (ops ++ [.stop])).started k x = false) := by
  refine ⟨?_, fun k x hx => by rw [run_append]; simp [apply, hx]⟩
  induction ops using List.reverseRecOn with
  | nil => intro h; cases h
  | append_singleton ops o ih =>
    have att : ∀ (m : List Item) (j : Kind) (y : Item),
        ((attachStats { run ops with managed := m } j y).running = true →
          ∀ k, ∀ x ∈ (attachStats { run ops with managed := m } j y).stats k, (attachStats { run ops with managed := m } j y).started k x = true) := by
      intro m j y hr k x hx
      simp only [attachStats] at hr hx ⊢
      simp only [hr, if_true, setStarted]
      simp only [setK] at hx
      split
      · rfl
      · next hne =>
        split at hx
        · next e =>
          rcases List.mem_append.mp hx with hx | hx
          · exact ih hr k x (e ▸ hx)
          · exact absurd ⟨e, by simpa using hx⟩ hne
        · exact ih hr k x hx
    have sub : ∀ (j : Kind) (l : List Item), (∀ x ∈ l, x ∈ (run ops).stats j) → (run ops).running = true → ∀ k, ∀ x ∈ setK (run ops).stats j l k, (run ops).started k x = true := by
      intro j l hl hr k x hx
      simp only [setK] at hx
      split at hx
      · next e => exact ih hr k x (e ▸ hl x hx)
      · exact ih hr k x hx
    rw [run_append]
    cases o with
    | start => intro _ k x hx; simp only [apply] at hx ⊢; simp [hx]
    | stop => intro h; simp [apply] at h
    | attachService y => exact att _ .service y
    | attach j y => exact att _ j y
    | detachService y => exact sub .service _ (fun x hx => List.mem_of_mem_eraseP hx)
    | detach j y =>
      cases j with
      | service => exact ih
      | function => exact sub .function _ (fun x hx => List.mem_of_mem_eraseP hx)
      | subscription => exact sub .subscription _ (fun x hx => List.mem_of_mem_eraseP hx)
      | publication => exact sub .publication _ (by simp)

/-- Specification: the container runs when the last of the `start` and `stop` calls was a `start`. -/
def runsAfter (ops : List Op) : Bool := (ops.reverse.find? fun o => o = .start || o = .stop) == some .start

theorem running_eq (ops : List Op) : (run ops).running = runsAfter ops := by
  induction ops using List.reverseRecOn with
  | nil => rfl
  | append_singleton ops o ih =>
    rw [run_append]
    unfold runsAfter at ih ⊢
    rw [List.reverse_append, List.reverse_singleton, List.singleton_append, List.find?_cons]
    cases o with
    | start => simp [apply]
    | stop => simp [apply]
    | attachService y => simpa [apply, attachStats] using ih
    | detachService y => simpa [apply] using ih
    | attach j y => simpa [apply, attachStats] using ih
    | detach j y => cases j <;> simpa [apply] using ih

/-- **C42**: when the last of the `start` and `stop` calls was a `start`, every statistics the container holds is started, also those attached
later.  Every history. -/
theorem C42_started_after_start (ops : List Op) (h : runsAfter ops = true) : ∀ k, ∀ x ∈ (run ops).stats k, (run ops).started k x = true :=
  (C42_started_while_running ops).1 (by rw [running_eq]; exact h)

example : runsAfter [.start, .stop, .attach .function ⟨1, "f"⟩, .start, .attach .function ⟨2, "g"⟩] = true ∧
    (run [.start, .stop, .attach .function ⟨1, "f"⟩, .start, .attach .function ⟨2, "g"⟩]).stats .function = [⟨1, "f"⟩, ⟨2, "g"⟩] := by decide +kernel

/-- Finding against **C42**, in general: detaching one publication statistics removes all of them. -/
theorem C42_detach_publication_removes_all (ops : List Op) (x : Item) : (run (ops ++ [.detach .publication x])).stats .publication = [] := by
  rw [run_append]; rfl

/-- … also those that should stay. -/
theorem C42_violation_publications :
    let ops : List Op := [.attach .publication ⟨1, "a"⟩, .attach .publication ⟨2, "b"⟩, .detach .publication ⟨1, "a"⟩]
    (run ops).stats .publication = [] ∧ held .publication ops = [⟨2, "b"⟩] := by decide

/-- Finding against **C42**: statistics are detached by name: detaching the second of two functions of the same name removes the first. -/
theorem C42_violation_same_name :
    let ops : List Op := [.attach .function ⟨1, "a"⟩, .attach .function ⟨2, "a"⟩, .detach .function ⟨2, "a"⟩]
    (run ops).stats .function = [⟨2, "a"⟩] ∧ held .function ops = [⟨1, "a"⟩] := by decide

/-- Detaching a service that was never attached removes another one of the same name, and its statistics. -/
theorem C42_violation_other_service :
    let ops : List Op := [.attachService ⟨1, "a"⟩, .detachService ⟨2, "a"⟩]
    (run ops).managed = [] ∧ (run ops).stats .service = [] ∧ services ops = [⟨1, "a"⟩] := by decide

/-- The hypotheses are met by a history with attaches and detaches of all kinds. -/
theorem C42_example :
    let ops : List Op := [.attachService ⟨1, "s"⟩, .start, .attach .function ⟨2, "f"⟩, .attach .function ⟨3, "g"⟩, .attachService ⟨4, "t"⟩, .detachService ⟨1, "s"⟩,
      .detach .function ⟨2, "f"⟩, .attach .service ⟨5, "u"⟩]
    NamesDistinct .function ops ∧ NamesDistinct .service ops ∧ (∀ o ∈ ops, Valid o) ∧ (run ops).stats .service = [⟨4, "t"⟩, ⟨5, "u"⟩] ∧
      (run ops).managed = [⟨4, "t"⟩] ∧ (run ops).stats .function = [⟨3, "g"⟩] := by
  refine ⟨?_, ?_, ?_, by decide, by decide, by decide⟩
  · intro x y hx hy; simp [mentions] at hx hy; rcases hx with rfl | rfl | rfl <;> rcases hy with rfl | rfl | rfl <;> simp
  · intro x y hx hy; simp [mentions] at hx hy; rcases hx with rfl | rfl | rfl | rfl <;> rcases hy with rfl | rfl | rfl | rfl <;> simp
  · intro o ho; simp at ho; rcases ho with rfl | rfl | rfl | rfl | rfl | rfl | rfl | rfl <;> trivial

theorem Fn.mem_all (f : Fn) : f ∈ Fn.all := by cases f <;> decide

/-- Finding (locks): calls of the container from several threads are not safe: `start` and `stop` race with every attach and detach,
`detach(PublicationStats)` with itself and with attach, and attaching a service with attaching service statistics (they use different mutexes for
the same vector); nothing else does. -/
theorem C42_races (f g : Fn) : races f g = true ↔
    ((f = .start ∨ f = .stop) ∧ g ≠ .start ∧ g ≠ .stop) ∨ ((g = .start ∨ g = .stop) ∧ f ≠ .start ∧ f ≠ .stop) ∨
    (f = .detachPublication ∧ (g = .detachPublication ∨ g = .attachPublication)) ∨ (f = .attachPublication ∧ g = .detachPublication) ∨
    (f = .attachServiceStats ∧ (g = .attachService ∨ g = .detachService)) ∨ ((f = .attachService ∨ f = .detachService) ∧ g = .attachServiceStats) := by
  cases f <;> cases g <;> decide

end Verif.Cont
