import Verif.Model.Row
import Mathlib.Tactic.Common
import Mathlib.Order.Basic
import Mathlib.Data.Nat.Basic

namespace Ringing

theorem lt_irrefl' (a : Row) : Row.lt a a = false := by
  induction a with
  | nil => rfl
  | cons x xs ih => simp [Row.lt, ih]

theorem lt_trans' : ∀ {a b c : Row}, Row.lt a b = true → Row.lt b c = true → Row.lt a c = true := by
  intro a
  induction a with
  | nil =>
    intro b c h1 h2
    cases c with
    | nil => cases b <;> cases h2
    | cons z zs => rfl
  | cons x xs ih =>
    intro b c h1 h2
    cases b with
    | nil => cases h1
    | cons y ys =>
      cases c with
      | nil => cases h2
      | cons z zs =>
        unfold Row.lt at h1 h2 ⊢
        split at h1
        · split at h2
          · rw [if_pos (by omega)]
          · split at h2
            · cases h2
            · rw [if_pos (by omega)]
        · split at h1
          · cases h1
          · split at h2
            · rw [if_pos (by omega)]
            · split at h2
              · cases h2
              · rw [if_neg (by omega), if_neg (by omega)]; exact ih h1 h2

theorem lt_total' : ∀ (a b : Row), Row.lt a b = true ∨ a = b ∨ Row.lt b a = true := by
  intro a
  induction a with
  | nil => intro b; cases b with
    | nil => exact Or.inr (Or.inl rfl)
    | cons y ys => exact Or.inl rfl
  | cons x xs ih =>
    intro b
    cases b with
    | nil => exact Or.inr (Or.inr rfl)
    | cons y ys =>
      unfold Row.lt
      rcases Nat.lt_trichotomy x y with h | h | h
      · simp [h]
      · subst h
        simp only [Nat.lt_irrefl, if_false]
        rcases ih ys with h | h | h
        · exact Or.inl h
        · subst h; exact Or.inr (Or.inl rfl)
        · exact Or.inr (Or.inr h)
      · right; right; simp [h]

theorem lt_asymm' {a b : Row} (h : Row.lt a b = true) : Row.lt b a = false := by
  by_contra hc
  have := lt_trans' h (by simpa using hc)
  rw [lt_irrefl'] at this; cases this

end Ringing
