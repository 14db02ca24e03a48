import Verif.Lemmas.SirilTokens3
/-
The tokens of texts.
-/
namespace Ringing.Siril
open Lexis

theorem word_head {T : TArgs} {c : Char} {w rest : Str} {t : Tok} (h : Word T (c :: w) rest t) : ¬ Blank c := by
  have : ∃ v, v = c :: w ∧ Word T v rest t := ⟨_, rfl, h⟩
  clear h
  obtain ⟨v, e, h⟩ := this
  cases h with
  | comment =>
    have : c = '/' := by
      revert e; unfold commentMark; split <;> · intro h; simp at h; exact h.1.symm
    subst this; simp [Blank]
  | quoted h => cases h <;> (obtain ⟨rfl, -⟩ := List.cons.inj e; simp [Blank])
  | @pair a b y _ h =>
    obtain ⟨rfl, -⟩ := List.cons.inj e
    simp only [pairs, List.mem_cons, Prod.mk.injEq, List.not_mem_nil, or_false] at h
    rcases h with ⟨rfl, rfl, rfl⟩ | ⟨rfl, rfl, rfl⟩ | ⟨rfl, rfl, rfl⟩ | ⟨rfl, rfl, rfl⟩ | ⟨rfl, rfl, rfl⟩ | ⟨rfl, rfl, rfl⟩ | ⟨rfl, rfl, rfl⟩ |
      ⟨rfl, rfl, rfl⟩ | ⟨rfl, rfl, rfl⟩ | ⟨rfl, rfl, rfl⟩ | ⟨rfl, rfl, rfl⟩ | ⟨rfl, rfl, rfl⟩ | ⟨rfl, rfl, rfl⟩ <;> simp [Blank]
  | place h => rcases h with rfl | rfl <;> (obtain ⟨rfl, -⟩ := List.cons.inj e; simp [Blank])
  | name h =>
    obtain ⟨rfl, -⟩ := List.cons.inj e
    rintro (rfl | rfl | rfl | rfl | rfl) <;> revert h <;> simp [NameStart, Letter]
  | number h =>
    obtain ⟨rfl, -⟩ := List.cons.inj e
    rintro (rfl | rfl | rfl | rfl | rfl) <;> revert h <;> simp [Lexis.Digit]
  | single _ _ _ h => obtain ⟨rfl, -⟩ := List.cons.inj e; exact h

theorem first_head {T : TArgs} {c : Char} {s rest : Str} {t : Tok} (h : First T (c :: s) t rest) : ¬ Blank c := by
  obtain ⟨w, e, h⟩ := h
  cases w with
  | nil => exact absurd rfl (word_nl h).1
  | cons x w =>
    obtain ⟨rfl, -⟩ := List.cons.inj e
    exact word_head h

theorem bad_head {c : Char} {s : Str} (h : Bad (c :: s)) : ¬ Blank c := by
  obtain ⟨x, p, b, r, e, hc, -⟩ := h
  obtain ⟨rfl, -⟩ := List.cons.inj e
  rcases hc with rfl | rfl <;> simp [Blank]

/-- Empty, or ending with the end of a line. -/
def Full (s : Str) : Prop := s = [] ∨ ∃ l, s = l ++ ['\n']

theorem Full.tail {c : Char} {s : Str} (h : Full (c :: s)) (hc : c ≠ '\n') : Full s := by
  rcases h with h | ⟨l, h⟩
  · cases h
  · cases l with
    | nil => exact absurd (List.cons.inj h).1 hc
    | cons x l => exact Or.inr ⟨l, (List.cons.inj h).2⟩

theorem Full.nl {s : Str} (h : Full s) (hs : s ≠ []) : '\n' ∈ s := by
  rcases h with h | ⟨l, rfl⟩
  · exact absurd h hs
  · simp

theorem Full.suffix {w r : Str} (h : Full (w ++ r)) : Full r := by
  rcases h with h | ⟨l, h⟩
  · exact Or.inl (List.append_eq_nil_iff.1 h).2
  · rcases List.eq_nil_or_concat r with rfl | ⟨r', x, rfl⟩
    · exact Or.inl rfl
    · right
      simp only [List.concat_eq_append, ← List.append_assoc] at h
      have := (List.append_inj' h rfl).2
      exact ⟨r', by rw [List.concat_eq_append, this]⟩

theorem blank_nl {c : Char} (h : Blank c) : c ≠ '\n' := by
  rintro rfl; revert h; simp [Blank]

theorem first_unique {T : TArgs} {s r r' : Str} {t t' : Tok} (hs : '\n' ∈ s) (h : First T s t r) (h' : First T s t' r') : t = t' ∧ r = r' := by
  have e := first_run h hs
  rw [first_run h' hs] at e
  cases e; exact ⟨rfl, rfl⟩

theorem nl_split {s : Str} (h : '\n' ∈ s) : ∃ l m, s = l ++ '\n' :: m ∧ '\n' ∉ l := by
  rcases Lib.split_first (· ≠ '\n') s with h' | ⟨a, c, b, rfl, ha, hc⟩
  · exact absurd rfl (h' _ h)
  · obtain rfl : c = '\n' := by simpa using hc
    exact ⟨a, b, rfl, fun h => ha _ h rfl⟩

theorem first_bad {T : TArgs} {s r : Str} {t : Tok} (hs : '\n' ∈ s) (h : First T s t r) (h' : Bad s) : False := by
  obtain ⟨l, m, rfl, hl⟩ := nl_split hs
  obtain ⟨r', h1, -⟩ := (first_line hl).1 h
  have e := first_run h1 (by simp)
  rw [bad_run hl (bad_line.1 h')] at e
  cases e

theorem first_ne {T : TArgs} {s r : Str} {t : Tok} (h : First T s t r) : s ≠ [] := by
  obtain ⟨w, rfl, h⟩ := h
  intro e
  exact (word_nl h).1 (List.append_eq_nil_iff.1 e).1

theorem first_full {T : TArgs} {s r : Str} {t : Tok} (h : First T s t r) (hf : Full s) : Full r := by
  obtain ⟨w, rfl, -⟩ := h; exact hf.suffix

theorem bad_nl {s : Str} (h : Bad s) : s ≠ [] := by
  obtain ⟨c, p, b, r, rfl, -⟩ := h; simp

theorem text_unique {T : TArgs} {s : Str} {ts ts' : List Tok} (hf : Full s) (h : Text T s ts) (h' : Text T s ts') : ts = ts' := by
  induction h generalizing ts' with
  | nil =>
    cases h' with
    | nil => rfl
    | token h => exact absurd rfl (first_ne h)
  | blank hc _ ih =>
    cases h' with
    | blank _ h' => exact ih (hf.tail (blank_nl hc)) h'
    | token h => exact absurd hc (first_head h)
  | @token s t r ts h1 _ ih =>
    have hn := hf.nl (first_ne h1)
    cases h' with
    | nil => exact absurd rfl (first_ne h1)
    | blank hc => exact absurd hc (first_head h1)
    | token h2 h' =>
      obtain ⟨rfl, rfl⟩ := first_unique hn h1 h2
      rw [ih (first_full h1 hf) h']

theorem text_stuck {T : TArgs} {s : Str} {ts ts' : List Tok} (hf : Full s) (h : Text T s ts) (h' : Stuck T s ts') : False := by
  induction h generalizing ts' with
  | nil =>
    cases h' with
    | here h => exact absurd rfl (bad_nl h)
    | token h => exact absurd rfl (first_ne h)
  | blank hc _ ih =>
    cases h' with
    | here h => exact absurd hc (bad_head h)
    | blank _ h' => exact ih (hf.tail (blank_nl hc)) h'
    | token h => exact absurd hc (first_head h)
  | @token s t r ts h1 _ ih =>
    have hn := hf.nl (first_ne h1)
    cases h' with
    | here h => exact first_bad hn h1 h
    | blank hc => exact absurd hc (first_head h1)
    | token h2 h' =>
      obtain ⟨rfl, rfl⟩ := first_unique hn h1 h2
      exact ih (first_full h1 hf) h'

theorem stuck_unique {T : TArgs} {s : Str} {ts ts' : List Tok} (hf : Full s) (h : Stuck T s ts) (h' : Stuck T s ts') : ts = ts' := by
  induction h generalizing ts' with
  | here hb =>
    have hn := hf.nl (bad_nl hb)
    cases h' with
    | here h => rfl
    | blank hc => exact absurd hc (bad_head hb)
    | token h => exact (first_bad hn h hb).elim
  | blank hc _ ih =>
    cases h' with
    | here h => exact absurd hc (bad_head h)
    | blank _ h' => exact ih (hf.tail (blank_nl hc)) h'
    | token h => exact absurd hc (first_head h)
  | @token s t r ts h1 _ ih =>
    have hn := hf.nl (first_ne h1)
    cases h' with
    | here h => exact (first_bad hn h1 h).elim
    | blank hc => exact absurd hc (first_head h1)
    | token h2 h' =>
      obtain ⟨rfl, rfl⟩ := first_unique hn h1 h2
      rw [ih (first_full h1 hf) h']

/-! ### The program -/

theorem lineToks_blank {T : TArgs} {c : Char} (h : Blank c) (n : Nat) (s : Str) : lineToks T n (c :: s) = lineToks T n s := by
  cases n with
  | zero => rfl
  | succ n => rw [lineToks, lineToks, List.dropWhile_cons_of_pos (p := fun c => Bell.isSpace c && c != '\n') ((skip_iff c).2 h)]

theorem lineToks_nil {T : TArgs} {n : Nat} (h : 0 < n) : lineToks T n [] = ([], .ok ()) := by
  cases n with
  | zero => omega
  | succ n => rfl

theorem line_cases {T : TArgs} : ∀ (k : Nat) (l : Str) (n : Nat), l.length ≤ k → l.length + 2 ≤ n → '\n' ∉ l →
    (∃ ts, lineToks T n (l ++ ['\n']) = (ts, .ok ()) ∧ (∀ m us, Text T m us → Text T (l ++ '\n' :: m) (ts ++ us)) ∧
      ∀ m us, Stuck T m us → Stuck T (l ++ '\n' :: m) (ts ++ us)) ∨
    ∃ ts, lineToks T n (l ++ ['\n']) = (ts, .throw .bellInvalid) ∧ ∀ m, Stuck T (l ++ '\n' :: m) ts := by
  intro k
  induction k with
  | zero =>
    intro l n hk hn hl
    obtain rfl := List.length_eq_zero_iff.1 (Nat.le_zero.1 hk)
    left
    have h : ∀ m, First T ([] ++ '\n' :: m) (.sym .newLine) m := fun m => ⟨['\n'], rfl, single_nl⟩
    refine ⟨[.sym .newLine], ?_, fun m us hm => .token (h m) hm, fun m us hm => .token (h m) hm⟩
    obtain ⟨n, rfl⟩ : ∃ n', n = n' + 1 := ⟨n - 1, by omega⟩
    have e := first_run (h []) (by simp)
    simp only [List.nil_append] at e ⊢
    rw [lineToks, List.dropWhile_cons_of_neg (by decide)]
    simp only [e, lineToks_nil (T := T) (n := n) (by simp at hn; omega)]
  | succ k ih =>
    intro l n hk hn hl
    cases l with
    | nil => exact ih [] n (by simp) hn hl
    | cons c l =>
      have hl' : '\n' ∉ l := fun h => hl (by simp [h])
      by_cases hc : Blank c
      · rw [List.cons_append, lineToks_blank hc]
        rcases ih l n (by simpa using hk) (by simp at hn; omega) hl' with ⟨ts, h1, h2, h3⟩ | ⟨ts, h1, h2⟩
        · exact Or.inl ⟨ts, h1, fun m us h => .blank hc (h2 m us h), fun m us h => .blank hc (h3 m us h)⟩
        · exact Or.inr ⟨ts, h1, fun m => .blank hc (h2 m)⟩
      · obtain ⟨n, rfl⟩ : ∃ n', n = n' + 1 := ⟨n - 1, by simp at hn; omega⟩
        have hd : (c :: l ++ ['\n']).dropWhile (fun c => Bell.isSpace c && c != '\n') = c :: (l ++ ['\n']) :=
          List.dropWhile_cons_of_neg (by rw [skip_iff]; exact hc)
        rcases first_or_bad (T := T) hl (c := c) (cs := l ++ ['\n']) rfl hc with ⟨t, r, h⟩ | h
        · have e := first_run h (by simp)
          have hr : ∃ l', r = l' ++ ['\n'] ∧ '\n' ∉ l' ∧ l'.length ≤ l.length := by
            obtain ⟨w, e, hw⟩ := h
            rcases List.eq_nil_or_concat r with rfl | ⟨l', x, rfl⟩
            · exfalso
              rw [List.append_nil] at e
              have := (word_nl hw).2
              rw [← e] at this
              rcases this with h | h
              · simp at h
              · simp at h
            · rw [List.concat_eq_append, ← List.append_assoc, ← List.cons_append] at e
              obtain ⟨e1, e2⟩ := List.append_inj' e rfl
              refine ⟨l', by rw [List.concat_eq_append, e2], fun h => hl (by rw [e1]; simp [h]), ?_⟩
              have h1 := congrArg List.length e1
              have h2 := List.length_pos_iff.2 (word_nl hw).1
              simp at h1; omega
          obtain ⟨l', rfl, hl2, hlen⟩ := hr
          have hf : ∀ m, First T (c :: l ++ '\n' :: m) t (l' ++ '\n' :: m) := fun m =>
            (first_line (l := c :: l) hl).2 ⟨_, h, by simp⟩
          simp at hn
          rcases ih l' n (by simp at hk; omega) (by omega) hl2 with ⟨ts, h1, h2, h3⟩ | ⟨ts, h1, h2⟩
          · refine Or.inl ⟨t :: ts, ?_, fun m us hm => .token (hf m) (h2 m us hm), fun m us hm => .token (hf m) (h3 m us hm)⟩
            rw [lineToks, hd]
            simp only [e, h1]
          · refine Or.inr ⟨t :: ts, ?_, fun m => .token (hf m) (h2 m)⟩
            rw [lineToks, hd]
            simp only [e, h1]
        · have e := bad_run (T := T) hl h
          rw [List.cons_append] at e
          refine Or.inr ⟨[], ?_, fun m => .here (bad_line.2 h)⟩
          rw [lineToks, hd]
          simp only [e]

/-- The lines, each with its end. -/
def joined (ls : List Str) : Str := ls.flatMap (· ++ ['\n'])

theorem joined_full (ls : List Str) : Full (joined ls) := by
  rcases List.eq_nil_or_concat ls with rfl | ⟨ls', l, rfl⟩
  · exact Or.inl rfl
  · exact Or.inr ⟨joined ls' ++ l, by simp [joined]⟩

theorem stream_cases {T : TArgs} {ls : List Str} : ∀ {s : Lib.IStream} {n : Nat}, Lib.StreamAt s ls → (∀ l ∈ ls, '\n' ∉ l) → ls.length < n →
    (∃ ts, streamToks T n s = (ts, .ok ()) ∧ Text T (joined ls) ts) ∨
    ∃ ts, streamToks T n s = (ts, .throw .bellInvalid) ∧ Stuck T (joined ls) ts := by
  induction ls with
  | nil =>
    intro s n hs _ hn
    cases n with
    | zero => omega
    | succ n =>
      obtain ⟨s', l, e, h1, h2, h3⟩ := Lib.getline_nil hs []
      left
      refine ⟨[], ?_, .nil⟩
      rw [streamToks, e]
      have : s'.fail = true := by simpa [Lib.IStream.ok] using h1
      simp [this]
  | cons l ls ih =>
    intro s n hs hl hn
    cases n with
    | zero => omega
    | succ n =>
      obtain ⟨s', e, h1⟩ := Lib.getline_cons hs []
      have hf : s'.fail = false := by have := h1.ok; simpa [Lib.IStream.ok] using this
      have hj : joined (l :: ls) = l ++ '\n' :: joined ls := by simp [joined]
      rw [streamToks, e, hj]
      simp only [hf]
      rcases line_cases (T := T) l.length l (l.length + 2) le_rfl le_rfl (hl l (by simp)) with ⟨ts, h2, h3, h4⟩ | ⟨ts, h2, h3⟩
      · rw [h2]
        rcases ih h1 (fun x hx => hl x (by simp [hx])) (n := n) (by simp at hn; omega) with ⟨us, h5, h6⟩ | ⟨us, h5, h6⟩
        · exact Or.inl ⟨ts ++ us, by simp [h5], h3 _ _ h6⟩
        · exact Or.inr ⟨ts ++ us, by simp [h5], h4 _ _ h6⟩
      · rw [h2]
        exact Or.inr ⟨ts, rfl, h3 _⟩

theorem lines_nl {t : Str} {ls : List Str} (h : Spec.Lines t ls) : ∀ l ∈ ls, '\n' ∉ l := by
  induction h with
  | nil => simp
  | last _ h => simpa using h
  | cons h _ ih => simp only [List.mem_cons, forall_eq_or_imp]; exact ⟨h, ih⟩

theorem ended_joined {text s : Str} (h : Ended text s) : ∃ ls, Spec.Lines text ls ∧ s = joined ls := by
  obtain ⟨ls, hls⟩ := Lib.exists_lines text
  refine ⟨ls, hls, ?_⟩
  have key : ∀ {t ls}, Spec.Lines t ls → (t = joined ls ∧ Full t) ∨ (t ++ ['\n'] = joined ls ∧ ¬ Full t) := by
    intro t ls h
    induction h with
    | nil => exact Or.inl ⟨rfl, Or.inl rfl⟩
    | @last l h1 h2 =>
      refine Or.inr ⟨by simp [joined], ?_⟩
      rintro (h | ⟨x, rfl⟩)
      · exact h1 h
      · exact h2 (by simp)
    | @cons l t ls h1 h2 ih =>
      have hj : joined (l :: ls) = l ++ '\n' :: joined ls := by simp [joined]
      rcases ih with ⟨e, h⟩ | ⟨e, h⟩
      · left
        refine ⟨by rw [hj, ← e], ?_⟩
        rcases h with rfl | ⟨x, rfl⟩
        · exact Or.inr ⟨l, rfl⟩
        · exact Or.inr ⟨l ++ '\n' :: x, by simp⟩
      · right
        refine ⟨by rw [hj, ← e]; simp, fun hf => h ?_⟩
        have : l ++ '\n' :: t = (l ++ ['\n']) ++ t := by simp
        rw [this] at hf
        exact hf.suffix
  rcases h with ⟨rfl, h⟩ | ⟨rfl, h1, h2⟩
  · rcases key hls with ⟨e, -⟩ | ⟨-, h'⟩
    · exact e
    · exact absurd h h'
  · rcases key hls with ⟨-, h'⟩ | ⟨e, -⟩
    · rcases h' with h' | h'
      · exact absurd h' h1
      · exact absurd h' h2
    · exact e

theorem tokens_cases (T : TArgs) {text s : Str} (h : Ended text s) :
    Full s ∧ ((∃ ts, tokensC T text = (ts, .ok ()) ∧ Text T s ts) ∨ ∃ ts, tokensC T text = (ts, .throw .bellInvalid) ∧ Stuck T s ts) := by
  obtain ⟨ls, hls, rfl⟩ := ended_joined h
  refine ⟨joined_full ls, ?_⟩
  have := stream_cases (T := T) (n := text.length + 2) (s := ⟨text, false, false⟩) (Or.inl ⟨_, rfl, hls⟩) (lines_nl hls)
    (by have := Lib.lines_length hls; omega)
  exact this

end Ringing.Siril
