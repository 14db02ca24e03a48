import Verif.Model.Trim
import Mathlib.Data.List.DropRight
/-! C97: trimming of text. -/
namespace Ringing
namespace Trim
open Bell

theorem trailLoop_spec (p : List Char) (hp : p ≠ []) (hl : p.length = 1 ∨ ∀ c ∈ p.getLast?, isSpace c = false) :
    ∀ (s : List Char), (∀ c ∈ s, isSpace c = true) → trailLoop (p ++ s) (p ++ s).length = .ok p.length := by
  have gen : ∀ (s t : List Char), (∀ c ∈ s, isSpace c = true) → trailLoop (p ++ s ++ t) (p ++ s).length = .ok p.length := by
    intro s
    induction s using List.reverseRecOn with
    | nil =>
      intro t _
      rw [List.append_nil]
      obtain ⟨n, hn⟩ : ∃ n, p.length = n + 1 := ⟨p.length - 1, by have := List.length_pos_iff.2 hp; omega⟩
      rw [hn, trailLoop]
      by_cases h0 : n = 0
      · rw [if_pos h0, h0]
      · rw [if_neg h0]
        rcases hl with h | h
        · omega
        · have hlt : n < p.length := by omega
          have hg : p.getLast? = some p[n] := by
            rw [List.getLast?_eq_getElem?, hn, Nat.add_sub_cancel, List.getElem?_eq_getElem hlt]
          have : vget (p ++ t) n = .ok p[n] := by
            unfold vget; rw [List.getElem?_append_left hlt, List.getElem?_eq_getElem hlt]
          rw [this, Out.ok_bind, h p[n] (by rw [hg]; rfl)]; simp
    | append_singleton s c ih =>
      intro t hs
      have h1 := ih (c :: t) (fun x hx => hs x (by simp [hx]))
      have e : p ++ (s ++ [c]) ++ t = p ++ s ++ c :: t := by simp
      have el : (p ++ (s ++ [c])).length = (p ++ s).length + 1 := by simp; omega
      rw [e, el, trailLoop]
      have := List.length_pos_iff.2 hp
      rw [if_neg (by rw [List.length_append]; omega)]
      have hv : vget (p ++ s ++ c :: t) (p ++ s).length = .ok c := by
        unfold vget; rw [List.getElem?_append_right le_rfl]; simp
      rw [hv, Out.ok_bind, if_pos (hs c (by simp))]; exact h1
  intro s hs
  have := gen s [] hs
  simpa using this

/-- C97: text is trimmed of all the white space before it and after it. -/
theorem C97_trim (a b t : List Char) (ha : ∀ c ∈ a, isSpace c = true) (hb : ∀ c ∈ b, isSpace c = true) (h0 : t ≠ [])
    (h1 : ∀ c ∈ t.head?, isSpace c = false) (h2 : ∀ c ∈ t.getLast?, isSpace c = false) : trimC (a ++ t ++ b) = .ok t := by
  have hl : leading (a ++ t ++ b) = t ++ b := by
    unfold leading
    induction a with
    | nil =>
      obtain ⟨c, t, rfl⟩ := List.exists_cons_of_ne_nil h0
      have := h1 c rfl
      simp [this]
    | cons x a ih =>
      rw [List.cons_append, List.cons_append, List.dropWhile_cons_of_pos (ha x (by simp))]
      exact ih fun c hc => ha c (by simp [hc])
  rw [trimC, hl, trailingC, trailLoop_spec t h0 (Or.inr h2) b hb, Out.ok_bind]; simp

/-- C97: all text is white space, or the text of the theorem above. -/
theorem C97_covers (s : List Char) : (∀ c ∈ s, isSpace c = true) ∨ ∃ a t b, s = a ++ t ++ b ∧ (∀ c ∈ a, isSpace c = true) ∧
    (∀ c ∈ b, isSpace c = true) ∧ t ≠ [] ∧ (∀ c ∈ t.head?, isSpace c = false) ∧ (∀ c ∈ t.getLast?, isSpace c = false) := by
  by_cases h : ∀ c ∈ s, isSpace c = true
  · exact Or.inl h
  · right
    have key : ∀ s : List Char, (¬ ∀ c ∈ s, isSpace c = true) → ∃ a t, s = a ++ t ∧ (∀ c ∈ a, isSpace c = true) ∧ t ≠ [] ∧
        ∀ c ∈ t.head?, isSpace c = false := by
      intro s
      induction s with
      | nil => intro h; simp at h
      | cons x s ih =>
        intro h
        by_cases hx : isSpace x = true
        · obtain ⟨a, t, e, h1, h2, h3⟩ := ih fun hs => h (by simpa [hx] using hs)
          exact ⟨x :: a, t, by rw [e]; rfl, by simpa [hx] using h1, h2, h3⟩
        · exact ⟨[], x :: s, rfl, by simp, by simp, by simpa using hx⟩
    obtain ⟨b, t, e, h1, h2, h3⟩ := key s.reverse (by simpa using h)
    have e' : s = t.reverse ++ b.reverse := by rw [← List.reverse_append, ← e, List.reverse_reverse]
    have hne : ¬ ∀ c ∈ t.reverse, isSpace c = true := by
      intro hh
      obtain ⟨c, t', rfl⟩ := List.exists_cons_of_ne_nil h2
      have a1 := hh c (by simp)
      have a2 := h3 c rfl
      rw [a1] at a2; exact absurd a2 (by simp)
    obtain ⟨a, u, e2, g1, g2, g3⟩ := key _ hne
    refine ⟨a, u, b.reverse, by rw [e', e2], g1, by simpa using h1, g2, g3, ?_⟩
    have : (a ++ u).getLast? = u.getLast? := by
      obtain ⟨c, u', rfl⟩ := List.exists_cons_of_ne_nil g2
      rw [List.getLast?_append, List.getLast?_cons]; rfl
    rw [← this, ← e2, List.getLast?_reverse]; exact h3

/-- C97: for text without anything else than white space the behaviour is undefined: a character before the text is read. -/
theorem C97_blank (s : List Char) (h : ∀ c ∈ s, isSpace c = true) : trimC s = .ub := by
  have : leading s = [] := by
    unfold leading
    rw [List.dropWhile_eq_nil_iff]; exact h
  rw [trimC, this]; rfl

/-- C97: trimming the end only leaves the first character even if it is white space. -/
theorem C97_trailing (x : Char) (s : List Char) (h : ∀ c ∈ s, isSpace c = true) : trailingC (x :: s) = .ok [x] := by
  have := trailLoop_spec [x] (by simp) (Or.inl rfl) s h
  rw [trailingC, show x :: s = [x] ++ s from rfl, this, Out.ok_bind]; rfl

example : trimC " 12 * 34 \n".toList = .ok "12 * 34".toList := by decide +kernel

end Trim
end Ringing
