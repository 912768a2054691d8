import Verif.Model.Memory

/-! Lemmas about the memory. -/

namespace Verif.RA
open Verif

variable {V : Type}

@[simp] theorem View.join_a (u v : View) (l : Nat) : (u.join v).a l = max (u.a l) (v.a l) := rfl
@[simp] theorem View.join_w (u v : View) (x : Nat) : (u.join v).w x = max (u.w x) (v.w x) := rfl
@[simp] theorem View.join_r (u v : View) (x t : Nat) : (u.join v).r x t = max (u.r x t) (v.r x t) := rfl
@[simp] theorem View.see_w (u : View) (l i : Nat) : (u.see l i).w = u.w := rfl
@[simp] theorem View.see_r (u : View) (l i : Nat) : (u.see l i).r = u.r := rfl
theorem View.see_a (u : View) (l i l' : Nat) : (u.see l i).a l' = if l' = l then max (u.a l) i else u.a l' := by
  simp only [View.see, upd_apply]
@[simp] theorem View.see_a_same (u : View) (l i : Nat) : (u.see l i).a l = max (u.a l) i := by simp [View.see_a]
theorem View.see_a_le (u : View) (l i l' : Nat) : u.a l' ≤ (u.see l i).a l' := by
  rw [View.see_a]; split
  · next h => subst h; omega
  · exact Nat.le_refl _

theorem Mem.load_some {m m' : Mem V} {t l i : Nat} {q : Int} (h : m.load t l i = some (q, m')) :
    ∃ g, (m.msgs l)[i]? = some g ∧ g.val = q ∧ (m.view t).a l ≤ i ∧
      m' = { m with view := upd m.view t (((m.view t).join g.view).see l i) } := by
  unfold Mem.load at h
  split at h
  · next hi =>
    split at h
    · next g hg => cases h; exact ⟨g, hg, rfl, hi, rfl⟩
    · cases h
  · cases h

theorem Mem.read_some {m m' : Mem V} {t x : Nat} {v : V} (h : m.read t x = some (v, m')) :
    (m.writes x).head? = some v ∧ m' = { m with
      reads := upd m.reads x (upd (m.reads x) t (m.reads x t + 1))
      view := upd m.view t { m.view t with r := upd (m.view t).r x (upd ((m.view t).r x) t (m.reads x t + 1)) } } := by
  unfold Mem.read at h
  split at h
  · next e => cases h; exact ⟨by rw [e]; rfl, rfl⟩
  · cases h

theorem append_get {α : Type} {l : List α} {a g : α} {i : Nat} (h : (l ++ [a])[i]? = some g) : (l[i]? = some g ∧ i < l.length) ∨ (i = l.length ∧ g = a) := by
  rcases Nat.lt_trichotomy i l.length with hi | hi | hi
  · rw [List.getElem?_append_left hi] at h; exact .inl ⟨h, hi⟩
  · subst hi; simp at h; exact .inr ⟨rfl, h.symm⟩
  · rw [List.getElem?_eq_none (by simp; omega)] at h; cases h

end Verif.RA
