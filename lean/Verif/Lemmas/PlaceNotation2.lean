import Verif.Lemmas.PlaceNotation

namespace Ringing
namespace PN
open Spec

/-! Without braces, `*last` is never read. -/

theorem nobrace_suffix {a b : List Char} (h : '{' ∉ a ++ b) : '{' ∉ b := by
  simp only [List.mem_append, not_or] at h; exact h.2

theorem scanChange_nobrace : ∀ (fuel : Nat) (s : List Char), '{' ∉ s → s.length ≤ fuel →
    ∃ t rest, s = t ++ rest ∧ ∀ endc acc, scanChange endc fuel s acc = .ok (acc ++ t, rest) := by
  intro fuel
  induction fuel with
  | zero =>
    intro s _ hs
    have : s = [] := by cases s; rfl; simp at hs
    subst this; exact ⟨[], [], rfl, fun _ _ => by simp [scanChange]⟩
  | succ f ih =>
    intro s hb hs
    cases s with
    | nil => exact ⟨[], [], rfl, fun _ _ => by simp [scanChange]⟩
    | cons c cs =>
      simp only [List.length_cons] at hs
      simp only [List.mem_cons, not_or] at hb
      by_cases h2 : isAlnum c = true ∧ c ≠ 'X' ∧ c ≠ 'x'
      · obtain ⟨t, rest, h3, h4⟩ := ih cs hb.2 (by omega)
        refine ⟨c :: t, rest, by rw [h3]; rfl, fun endc acc => ?_⟩
        rw [scanChange, if_neg (fun e => hb.1 e.symm), if_pos h2, h4]; simp
      · refine ⟨[], c :: cs, rfl, fun endc acc => ?_⟩
        rw [scanChange, if_neg (fun e => hb.1 e.symm), if_neg h2]; simp

theorem readBlock_nobrace (n : Nat) (e1 e2 : Out Char) : ∀ (fuel : Nat) (s : List Char) (acc : List Change),
    '{' ∉ s → readBlock e1 n fuel s acc = readBlock e2 n fuel s acc ∧
      ∀ cs rest, readBlock e1 n fuel s acc = .ok (cs, rest) → '{' ∉ rest := by
  intro fuel
  induction fuel with
  | zero =>
    intro s acc hb
    cases s with
    | nil => exact ⟨by simp [readBlock], by rintro cs rest h; cases h; simp⟩
    | cons c cs => exact ⟨by simp [readBlock], by rintro cs rest h; cases h⟩
  | succ f ih =>
    intro s acc hb
    cases s with
    | nil => exact ⟨by simp [readBlock], by rintro cs rest h; cases h; simp⟩
    | cons c cs =>
      have hsep : ∀ r, '{' ∉ r → '{' ∉ skipSep '.' r := by
        intro r hr
        obtain ⟨w, -, h⟩ := skipSep_split '.' r
        rw [h] at hr; exact nobrace_suffix hr
      have hb' : '{' ∉ cs := by simp only [List.mem_cons, not_or] at hb; exact hb.2
      rw [readBlock, readBlock]
      split
      · split
        · cases hch : Change.ofStringC n ['X'] with
          | ok ch => exact ih _ _ (hsep _ hb')
          | throw e => exact ⟨rfl, by rintro cs rest h; cases h⟩
          | ub => exact ⟨rfl, by rintro cs rest h; cases h⟩
          | timeout => exact ⟨rfl, by rintro cs rest h; cases h⟩
        · obtain ⟨t, rest, h3, h4⟩ := scanChange_nobrace (c :: cs).length (c :: cs) hb le_rfl
          rw [h4, h4]
          simp only [Out.ok_bind, List.nil_append]
          have hr : '{' ∉ rest := by rw [h3] at hb; exact nobrace_suffix hb
          cases hch : pushChange n t acc with
          | ok ch => exact ih _ _ (hsep _ hr)
          | throw e => exact ⟨rfl, by rintro cs rest h; cases h⟩
          | ub => exact ⟨rfl, by rintro cs rest h; cases h⟩
          | timeout => exact ⟨rfl, by rintro cs rest h; cases h⟩
      · exact ⟨rfl, by rintro cs' rest h; cases h; exact hb⟩

theorem blocks_nobrace (n : Nat) (e1 e2 : Out Char) : ∀ (fuel : Nat) (s : List Char) (out : List Change),
    '{' ∉ s → blocks e1 n fuel s out = blocks e2 n fuel s out := by
  intro fuel
  induction fuel with
  | zero => intro s out _; cases s <;> simp [blocks]
  | succ f ih =>
    intro s out hb
    cases s with
    | nil => simp [blocks]
    | cons c cs =>
      have hsep : ∀ d r, '{' ∉ r → '{' ∉ skipSep d r := by
        intro d r hr
        obtain ⟨w, -, h⟩ := skipSep_split d r
        rw [h] at hr; exact nobrace_suffix hr
      have hb' : '{' ∉ cs := by simp only [List.mem_cons, not_or] at hb; exact hb.2
      rw [blocks, blocks]
      have hs : '{' ∉ (if c = '&' ∨ c = '+' then skipSep '.' cs else c :: cs) := by
        split
        · exact hsep _ _ hb'
        · exact hb
      generalize (if c = '&' ∨ c = '+' then skipSep '.' cs else c :: cs) = s' at hs
      obtain ⟨h1, h2⟩ := readBlock_nobrace n e1 e2 s'.length s' [] hs
      rw [← h1]
      cases hr : readBlock e1 n s'.length s' [] with
      | ok br =>
        have hr' := h2 br.1 br.2 hr
        simp only [Out.ok_bind]
        have : ∀ r, endBlock br.2 = .ok r → '{' ∉ r := by
          intro r h
          cases hbr : br.2 with
          | nil => rw [hbr] at h; cases h; simp
          | cons d ds =>
            rw [hbr, endBlock] at h
            split at h
            · cases h
            · cases h; exact hsep _ _ (by rw [← hbr]; exact hr')
        cases he : endBlock br.2 with
        | ok r => exact ih _ _ (this r he)
        | throw e => rfl
        | ub => rfl
        | timeout => rfl
      | throw e => rfl
      | ub => rfl
      | timeout => rfl

end PN
end Ringing
