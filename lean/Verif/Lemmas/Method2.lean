import Verif.Lemmas.Method
import Verif.Lemmas.NamedRows
import Verif.Spec.Method

namespace Ringing
open Spec
namespace Method

theorem WF.at_ok {m : Method} {i : Nat} (hi : i < m.length) : at' m i = .ok (m.ch[i]) := vget_ok hi

theorem WF.change {m : Method} (h : m.WF) {i : Nat} (hi : i < m.length) :
    (m.ch[i]).WF ∧ (m.ch[i]).n = m.b := h.2 _ (List.getElem_mem hi)

/-- The palindrome test of the loop of `is_palindromic_about`. -/
theorem WF.isPalindromicAbout {m : Method} (h : m.WF) {i : Nat} (hi : i < m.length) :
    ∃ b, isPalindromicAboutC m i = .ok b ∧ (b = true ↔ MirrorAbout m.ch i) := by
  have hn : 0 < m.length := by omega
  unfold isPalindromicAboutC
  simp only
  generalize hn' : m.length = n at *
  set hf := (if n % 2 = 0 then n / 2 else n / 2 + 1) with hhf
  have hfb : hf ≤ n ∧ (2 * hf = n ∨ 2 * hf = n + 1) := by
    rw [hhf]; split <;> omega
  clear_value hf
  obtain ⟨b, h1, h2⟩ := allUp_ok (lo := 1) (hi := hf)
    (f := fun j => do
      let c ← at' m ((i + j) % n)
      let d ← at' m ((i + n - j) % n)
      pure (Change.eq c d))
    (g := fun j => decide (m.ch[(i + j) % n]? = m.ch[(i + n - j) % n]?)) (by
      intro j h1 h2
      have l1 : (i + j) % n < m.length := by rw [hn']; exact Nat.mod_lt _ hn
      have l2 : (i + n - j) % n < m.length := by rw [hn']; exact Nat.mod_lt _ hn
      simp only [WF.at_ok l1, WF.at_ok l2, Out.ok_bind, Out.pure_eq]
      congr 1
      rw [Bool.eq_iff_iff, Change.WF.eq_iff (h.change l1).1 (h.change l2).1]
      simp [List.getElem?_eq_getElem l1, List.getElem?_eq_getElem l2])
  refine ⟨b, h1, ?_⟩
  rw [h2]
  have hlen : m.ch.length = n := hn'
  constructor
  · intro hall
    have key : ∀ a b, a < n → b < n → a < b →
        (a + b = 2 * i ∨ a + b = 2 * i + n ∨ a + b + n = 2 * i) → m.ch[a]? = m.ch[b]? := by
      intro a b ha hb hab hs
      have eval : ∀ j, 1 ≤ j → j < hf → m.ch[(i + j) % n]? = m.ch[(i + n - j) % n]? := by
        intro j h1 h2; simpa using hall j h1 h2
      rcases hs with hs | hs | hs
      · -- distance b - i = i - a
        by_cases hd : b - i < hf
        · have := eval (b - i) (by omega) hd
          rw [mod_two (by omega), mod_two (by omega), if_pos (by omega), if_neg (by omega)] at this
          rw [show i + (b - i) = b by omega, show i + n - (b - i) - n = a by omega] at this
          exact this.symm
        · have := eval (n - (b - i)) (by omega) (by omega)
          rw [mod_two (by omega), mod_two (by omega)] at this
          by_cases hx : i + (n - (b - i)) < n
          · omega
          · rw [if_neg hx, if_pos (by omega), show i + (n - (b - i)) - n = a by omega,
              show i + n - (n - (b - i)) = b by omega] at this
            exact this
      · -- a + b = 2i + n, a ≤ b
        -- b = i + n - j, a = i + j
        by_cases hd : a - i < hf ∧ i < a
        · have := eval (a - i) (by omega) (by omega)
          rw [mod_two (by omega), mod_two (by omega), if_pos (by omega), if_pos (by omega)] at this
          rw [show i + (a - i) = a by omega, show i + n - (a - i) = b by omega] at this
          exact this
        · by_cases h3 : i < a
          · omega
          · omega
      · -- a + b + n = 2 i, b < i
        by_cases hd : i - b < hf
        · have := eval (i - b) (by omega) hd
          rw [mod_two (by omega), mod_two (by omega), if_neg (by omega), if_neg (by omega)] at this
          rw [show i + (i - b) - n = a by omega, show i + n - (i - b) - n = b by omega] at this
          exact this
        · omega
    intro a b ha hb hs
    rw [hlen] at ha hb hs
    rcases Nat.lt_trichotomy a b with h | h | h
    · exact key a b ha hb h hs
    · rw [h]
    · exact (key b a hb ha h (by omega)).symm
  · intro hm j h1 h2
    have := hm ((i + j) % n) ((i + n - j) % n) (by rw [hlen]; exact Nat.mod_lt _ hn)
      (by rw [hlen]; exact Nat.mod_lt _ hn) (by
        rw [hlen, mod_two (by omega), mod_two (by omega)]
        split_ifs <;> omega)
    simpa using this

theorem WF.issym {m : Method} (h : m.WF) :
    ∃ b, issymC m = .ok b ∧
      (b = true ↔ m.length % 2 = 0 ∧ (m.length = 0 ∨ MirrorAbout m.ch (m.length / 2 - 1))) := by
  unfold issymC
  by_cases h1 : m.length % 2 = 1
  · rw [if_pos h1]; exact ⟨false, rfl, by simp; omega⟩
  · rw [if_neg h1]
    by_cases h0 : m.length = 0
    · refine ⟨true, ?_, by simp [h0]⟩
      simp [isPalindromicAboutC, h0, allUp, allN]
    · obtain ⟨b, h2, h3⟩ := h.isPalindromicAbout (i := m.length / 2 - 1) (by omega)
      refine ⟨b, h2, h3.trans ?_⟩
      constructor
      · intro h; exact ⟨by omega, .inr h⟩
      · rintro ⟨-, h | h⟩
        · omega
        · exact h

theorem WF.symmetryPoint {m : Method} (h : m.WF) :
    (symmetryPointC m = .ok (-1) ∧ (m.length % 2 = 0 → ∀ i, i < m.length / 2 → ¬ MirrorAbout m.ch i)) ∨
    ∃ i : Nat, symmetryPointC m = .ok (i : Int) ∧ m.length % 2 = 0 ∧ i < m.length / 2 ∧
      MirrorAbout m.ch i ∧ ∀ j, j < i → ¬ MirrorAbout m.ch j := by
  classical
  unfold symmetryPointC
  by_cases h1 : m.length % 2 ≠ 0
  · rw [if_pos h1]; left; exact ⟨rfl, fun h => absurd h h1⟩
  · rw [if_neg h1]
    have := findN_ok (f := isPalindromicAboutC m) (g := fun i => decide (MirrorAbout m.ch i))
      (k := m.length / 2) (lo := 0) (by
        intro i _ hi
        obtain ⟨b, h2, h3⟩ := h.isPalindromicAbout (i := i) (by omega)
        rw [h2]; congr 1
        rw [Bool.eq_iff_iff, h3, decide_eq_true_eq])
    rcases this with ⟨h2, h3⟩ | ⟨i, h2, -, h3, h4, h5⟩
    · left; exact ⟨h2, fun _ i hi => by simpa using h3 i (by omega) (by omega)⟩
    · right; exact ⟨i, h2, by omega, by omega, by simpa using h4, fun j hj => by simpa using h5 j (by omega) hj⟩

/-! ### The symmetric form of a method -/

theorem mirror_split {α : Type} {l : List α} {s : Nat} (he : l.length % 2 = 0) (hs : s < l.length / 2)
    (hm : MirrorAbout l s) :
    (l.take (s + 1) ++ (l.take (s + 1)).dropLast.reverse) ++
      ((l.take (l.length / 2 + s + 1)).drop (2 * s + 1) ++
        ((l.take (l.length / 2 + s + 1)).drop (2 * s + 1)).dropLast.reverse) = l := by
  apply List.ext_getElem?
  intro k
  by_cases hk : k < l.length
  swap
  · rw [List.getElem?_eq_none (by simp; omega), List.getElem?_eq_none (by omega)]
  have l1 : (l.take (s + 1) ++ (l.take (s + 1)).dropLast.reverse).length = 2 * s + 1 := by
    simp; omega
  rw [List.getElem?_append]
  rw [l1]
  split
  · rename_i h1
    rw [List.getElem?_append]
    have l2 : (l.take (s + 1)).length = s + 1 := by simp; omega
    rw [l2]
    split
    · rw [List.getElem?_take_of_lt (by omega)]
    · rename_i h2
      rw [List.getElem?_reverse (by simp; omega), List.getElem?_dropLast, if_pos (by simp; omega),
        List.getElem?_take_of_lt (by simp; omega)]
      apply hm
      · simp; omega
      · omega
      · left; simp; omega
  · rename_i h1
    have l3 : ((l.take (l.length / 2 + s + 1)).drop (2 * s + 1)).length = l.length / 2 - s := by
      simp; omega
    rw [List.getElem?_append, l3]
    split
    · rw [List.getElem?_drop, List.getElem?_take_of_lt (by omega)]
      congr 1; omega
    · rename_i h2
      rw [List.getElem?_reverse (by rw [List.length_dropLast, l3]; omega), List.getElem?_dropLast,
        List.length_dropLast, l3, if_pos (by omega), List.getElem?_drop, List.getElem?_take_of_lt (by omega)]
      apply hm
      · omega
      · omega
      · right; left; omega

/-- The meaning of the formatted text. -/
theorem WF.format_text {m : Method} (h : m.WF) (flags : Nat)
    (h0 : ¬ (m.length = 0 ∧ has flags M_OMIT_LH = true)) :
    ∃ s, formatC m flags = .ok s ∧
      PNText m.b s (if has flags M_OMIT_LH then m.ch.dropLast else m.ch) ∧ (m.b ≤ 33 → '{' ∉ s) := by
  have sepnil : Sep '.' [] := .inl (by simp [White])
  -- any part of the method
  have part : ∀ cs : List Change, (∀ c ∈ cs, c ∈ m.ch) → BlockText m.b (section' flags cs false true) cs ∧
      (m.b ≤ 33 → '{' ∉ section' flags cs false true) :=
    fun cs hcs => section_text flags fun c hc => h.2 c (hcs c hc)
  obtain ⟨o, ho, hsym⟩ : ∃ o, formatSym m flags = .ok o ∧ ∀ s, o = some s →
      m.length % 2 = 0 ∧ s < m.length / 2 ∧ MirrorAbout m.ch s ∧ m.length > 2 ∧
      (has flags M_OMIT_LH = true → s = m.length / 2 - 1) := by
    unfold formatSym
    split
    · rename_i hc
      obtain ⟨b, h1, h2⟩ := h.issym
      rw [h1]; simp only [Out.ok_bind]
      cases b with
      | true =>
        have := h2.1 rfl
        refine ⟨_, rfl, ?_⟩
        intro s hs; cases hs
        refine ⟨this.1, by omega, ?_, hc.2, fun _ => rfl⟩
        rcases this.2 with h | h
        · omega
        · exact h
      | false =>
        simp only [Bool.false_eq_true, if_false]
        split
        · rename_i hf
          rcases h.symmetryPoint with ⟨k1, -⟩ | ⟨i, k1, k2, k3, k4, -⟩
          · rw [k1]; exact ⟨_, rfl, by simp⟩
          · rw [k1]
            refine ⟨_, rfl, ?_⟩
            intro s hs
            rw [if_pos (by omega)] at hs
            cases hs
            exact ⟨k2, by simpa using k3, by simpa using k4, hc.2, fun h => absurd h hf.2⟩
        · exact ⟨_, rfl, by simp⟩
    · exact ⟨_, rfl, by simp⟩
  unfold formatC
  simp only
  rw [ho]
  simp only [Out.ok_bind]
  cases o with
  | none =>
    simp only
    by_cases hom : has flags M_OMIT_LH = true
    · have hn0 : m.length ≠ 0 := fun e => h0 ⟨e, hom⟩
      rw [if_pos hom, if_neg hn0]
      have hsec : sectionC m 0 (m.length - 1) flags = .ok (section' flags m.ch.dropLast false true) := by
        unfold sectionC
        rw [if_neg (by omega), List.drop_zero, List.dropLast_eq_take]
      obtain ⟨k1, k2⟩ := part m.ch.dropLast fun c hc => List.mem_of_mem_dropLast hc
      rw [hsec, if_pos hom]
      refine ⟨_, rfl, ?_, ?_⟩
      · apply PNText.one
        split
        · exact .plus (w := []) sepnil k1
        · exact .plain k1
      · intro h33
        have := k2 h33
        split <;> simpa using this
    · rw [if_neg hom]
      have hsec : sectionC m 0 m.length flags = .ok (section' flags m.ch false true) := by
        unfold sectionC
        rw [if_neg (by omega), List.drop_zero, List.take_length]
      obtain ⟨k1, k2⟩ := part m.ch fun c hc => hc
      rw [hsec, if_neg hom]
      refine ⟨_, rfl, ?_, ?_⟩
      · apply PNText.one
        split
        · exact .plus (w := []) sepnil k1
        · exact .plain k1
      · intro h33
        have := k2 h33
        split <;> simpa using this
  | some s =>
    obtain ⟨he, hs, hm, hgt, hom'⟩ := hsym s rfl
    have hsplit := mirror_split he hs hm
    simp only
    have hsec0 : sectionC m 0 (s + 1) flags = .ok (section' flags (m.ch.take (s + 1)) false true) := by
      unfold sectionC
      rw [if_neg (by omega), List.drop_zero]
    have hsec1 : sectionC m (2 * s + 1) (m.length / 2 + s + 1) flags =
        .ok (section' flags ((m.ch.take (m.length / 2 + s + 1)).drop (2 * s + 1)) false true) := by
      unfold sectionC
      rw [if_neg (by omega)]
    obtain ⟨k1, k2⟩ := part (m.ch.take (s + 1)) fun c hc => List.mem_of_mem_take hc
    obtain ⟨j1, j2⟩ := part ((m.ch.take (m.length / 2 + s + 1)).drop (2 * s + 1))
      fun c hc => List.mem_of_mem_take (List.mem_of_mem_drop hc)
    -- the first block
    have b0 : BlockPN m.b ((if s ≠ 0 then ['&'] else if has flags M_PLUS = true then ['+'] else []) ++
        section' flags (m.ch.take (s + 1)) false true)
        (m.ch.take (s + 1) ++ (m.ch.take (s + 1)).dropLast.reverse) := by
      split
      · exact .sym (w := []) sepnil k1
      · rename_i hs0
        have hs0 : s = 0 := by simpa using hs0
        have : (m.ch.take (s + 1)).dropLast.reverse = [] := by
          subst hs0
          rw [List.reverse_eq_nil_iff, ← List.length_eq_zero_iff, List.length_dropLast, List.length_take]; omega
        rw [this, List.append_nil]
        split
        · exact .plus (w := []) sepnil k1
        · exact .plain k1
    have b1 : BlockPN m.b ((if s ≠ m.length / 2 - 1 then ['&'] else if has flags M_PLUS = true then ['+'] else []) ++
        section' flags ((m.ch.take (m.length / 2 + s + 1)).drop (2 * s + 1)) false true)
        ((m.ch.take (m.length / 2 + s + 1)).drop (2 * s + 1) ++
          ((m.ch.take (m.length / 2 + s + 1)).drop (2 * s + 1)).dropLast.reverse) := by
      split
      · exact .sym (w := []) sepnil j1
      · rename_i hs0
        have hs0 : s = m.length / 2 - 1 := by simpa using hs0
        have : ((m.ch.take (m.length / 2 + s + 1)).drop (2 * s + 1)).dropLast.reverse = [] := by
          rw [List.reverse_eq_nil_iff, ← List.length_eq_zero_iff, List.length_dropLast, List.length_drop,
            List.length_take]; omega
        rw [this, List.append_nil]
        split
        · exact .plus (w := []) sepnil j1
        · exact .plain j1
    have nb0 : m.b ≤ 33 → '{' ∉ (if s ≠ 0 then ['&'] else if has flags M_PLUS = true then ['+'] else []) ++
        section' flags (m.ch.take (s + 1)) false true := by
      intro h33
      have := k2 h33
      split
      · simpa using this
      · split <;> simpa using this
    have nb1 : m.b ≤ 33 → '{' ∉ (if s ≠ m.length / 2 - 1 then ['&'] else if has flags M_PLUS = true then ['+'] else []) ++
        section' flags ((m.ch.take (m.length / 2 + s + 1)).drop (2 * s + 1)) false true := by
      intro h33
      have := j2 h33
      split
      · simpa using this
      · split <;> simpa using this
    rw [hsec0]; simp only [Out.ok_bind]
    by_cases hom : has flags M_OMIT_LH = true
    · rw [if_pos hom, if_pos hom]
      refine ⟨_, rfl, ?_, nb0⟩
      have hs' := hom' hom
      have : m.ch.dropLast = m.ch.take (s + 1) ++ (m.ch.take (s + 1)).dropLast.reverse := by
        have l1 : (m.ch.take (s + 1) ++ (m.ch.take (s + 1)).dropLast.reverse).length = m.ch.length - 1 := by
          simp only [List.length_append, List.length_take, List.length_reverse, List.length_dropLast]
          have : m.length = m.ch.length := rfl
          omega
        have key : ∀ (l A B : List Change), A ++ B = l → A.length = l.length - 1 → l.dropLast = A := by
          rintro l A B rfl hl
          rw [List.dropLast_eq_take, ← hl]; simp
        exact key _ _ _ hsplit l1
      rw [this]
      exact .one b0
    · rw [if_neg hom, if_neg hom, hsec1]
      refine ⟨_, rfl, ?_, ?_⟩
      · have := PNText.more (w := []) b0 (by simp [White]) (.one b1)
        rw [hsplit] at this
        simpa using this
      · intro h33
        have h1 := nb0 h33
        have h2 := nb1 h33
        simp only [List.append_assoc, List.mem_append, not_or, List.mem_singleton] at h1 h2 ⊢
        exact ⟨h1.1, h1.2, by decide, h2.1, h2.2⟩

end Method
end Ringing
