import Verif.Spec.PlaceNotation
import Verif.Lemmas.Change2

namespace Ringing
namespace PN
open Spec

/-- The text cannot continue a change given by its places. -/
def Stop (s : List Char) : Prop :=
  s = [] ∨ ∃ c cs, s = c :: cs ∧ c ≠ '{' ∧ ¬ (isAlnum c = true ∧ c ≠ 'X' ∧ c ≠ 'x')

/-- `*last` can be read and is not a closing brace. -/
def EndOk (endc : Out Char) : Prop := ∃ e, endc = .ok e ∧ e ≠ '}'

theorem readExprLoop_body {endc : Out Char} (he : EndOk endc) : ∀ {b : List Char} {acc rest},
    (∀ x ∈ b, x ≠ '{' ∧ x ≠ '}') →
    readExprLoop endc (b ++ '}' :: rest) 0 acc = .ok (acc.reverse ++ (b ++ ['}']), rest) := by
  obtain ⟨e, rfl, he'⟩ := he
  intro b
  induction b with
  | nil => intro acc rest _; simp [readExprLoop]
  | cons x b ih =>
    intro acc rest hb
    have h1 := hb x (by simp)
    rw [List.cons_append, readExprLoop, if_neg (by simp [h1.2]), if_neg h1.1]
    simp only [Out.ok_bind, if_neg he']
    rw [ih (fun y hy => hb y (by simp [hy]))]
    simp

theorem readExprLoop_deep {endc : Out Char} (he : EndOk endc) : ∀ (s : List Char) (d : Int) (acc : List Char),
    0 < d → readExprLoop endc s d acc = .throw .bellInvalid := by
  obtain ⟨e, rfl, he'⟩ := he
  intro s
  induction s with
  | nil => intro d acc _; rfl
  | cons c s ih =>
    intro d acc hd
    rw [readExprLoop, if_neg (by omega)]
    split
    · exact ih _ _ (by omega)
    · simp only [Out.ok_bind, if_neg he']; exact ih _ _ hd

theorem readExprLoop_cases {endc : Out Char} (he : EndOk endc) : ∀ (s acc : List Char),
    (∃ b rest, s = b ++ '}' :: rest ∧ (∀ x ∈ b, x ≠ '{' ∧ x ≠ '}') ∧
      readExprLoop endc s 0 acc = .ok (acc.reverse ++ (b ++ ['}']), rest)) ∨
    readExprLoop endc s 0 acc = .throw .bellInvalid := by
  intro s
  induction s with
  | nil => intro acc; right; rfl
  | cons c s ih =>
    intro acc
    by_cases h1 : c = '}'
    · left; subst h1
      exact ⟨[], s, rfl, by simp, readExprLoop_body he (b := []) (by simp)⟩
    · by_cases h2 : c = '{'
      · right
        rw [readExprLoop, if_neg (by simp [h1]), if_pos h2]
        exact readExprLoop_deep he _ _ _ (by omega)
      · have he0 := he
        obtain ⟨e, rfl, he'⟩ := he0
        have e1 : readExprLoop (.ok e) (c :: s) 0 acc = readExprLoop (.ok e) s 0 (c :: acc) := by
          rw [readExprLoop, if_neg (by simp [h1]), if_neg h2]
          simp only [Out.ok_bind, if_neg he']
        rcases ih (c :: acc) with ⟨b, rest, h3, h4, h5⟩ | h
        · left
          refine ⟨c :: b, rest, by rw [h3]; rfl, ?_, ?_⟩
          · intro x hx
            rcases List.mem_cons.1 hx with rfl | hx
            · exact ⟨h2, h1⟩
            · exact h4 x hx
          · rw [e1, h5]; simp
        · right; rw [e1, h]

theorem scanChange_complete {endc : Out Char} {t : List Char} (ht : PlaceText t)
    (he : EndOk endc ∨ '{' ∉ t) : ∀ {rest : List Char}, Stop rest →
    ∀ {fuel : Nat} {acc : List Char}, (t ++ rest).length ≤ fuel →
    scanChange endc fuel (t ++ rest) acc = .ok (acc ++ t, rest) := by
  induction ht with
  | nil =>
    intro rest hr fuel acc hf
    rcases hr with rfl | ⟨c, cs, rfl, h1, h2⟩
    · simp [scanChange]
    · obtain ⟨f, rfl⟩ : ∃ f, fuel = f + 1 := ⟨fuel - 1, by simp at hf; omega⟩
      rw [List.nil_append, scanChange, if_neg h1, if_neg h2]; simp
  | @sym c t h1 h2 h3 ht ih =>
    intro rest hr fuel acc hf
    obtain ⟨f, rfl⟩ : ∃ f, fuel = f + 1 := ⟨fuel - 1, by simp at hf; omega⟩
    have h4 : c ≠ '{' := by rintro rfl; exact absurd h1 (by decide)
    rw [List.cons_append, scanChange, if_neg h4, if_pos ⟨h1, h2, h3⟩,
      ih (he.imp id (fun h => by simp at h; exact h.2)) hr (by simpa using hf)]
    simp
  | @brace b t hb ht ih =>
    intro rest hr fuel acc hf
    obtain ⟨f, rfl⟩ : ∃ f, fuel = f + 1 := ⟨fuel - 1, by simp at hf; omega⟩
    have he' : EndOk endc := by rcases he with h | h; exact h; simp at h
    have e : ('{' :: (b ++ '}' :: t)) ++ rest = '{' :: (b ++ '}' :: (t ++ rest)) := by simp
    rw [e, scanChange, if_pos rfl, readBellExpr]
    simp only [if_true]
    rw [readExprLoop_body he' hb]
    simp only [Out.ok_bind]
    rw [ih (.inl he') hr (by simp at hf ⊢; omega)]
    simp

theorem scanChange_cases {endc : Out Char} (he : EndOk endc) : ∀ (fuel : Nat) (s acc : List Char),
    s.length ≤ fuel →
    (∃ t rest, s = t ++ rest ∧ PlaceText t ∧ Stop rest ∧ scanChange endc fuel s acc = .ok (acc ++ t, rest)) ∨
    scanChange endc fuel s acc = .throw .bellInvalid := by
  intro fuel
  induction fuel with
  | zero =>
    intro s acc hs
    have : s = [] := by cases s; rfl; simp at hs
    subst this
    left; exact ⟨[], [], rfl, .nil, .inl rfl, by simp [scanChange]⟩
  | succ f ih =>
    intro s acc hs
    cases s with
    | nil => left; exact ⟨[], [], rfl, .nil, .inl rfl, by simp [scanChange]⟩
    | cons c cs =>
      simp only [List.length_cons] at hs
      by_cases h1 : c = '{'
      · subst h1
        rcases readExprLoop_cases he cs ['{'] with ⟨b, rest, h3, h4, h5⟩ | h
        · rcases ih rest (acc ++ (['{'].reverse ++ (b ++ ['}']))) (by rw [h3] at hs; simp at hs; omega) with
            ⟨t, rest', k1, k2, k3, k4⟩ | k
          · left
            refine ⟨'{' :: (b ++ '}' :: t), rest', by rw [h3, k1]; simp, .brace h4 k2, k3, ?_⟩
            rw [scanChange, if_pos rfl, readBellExpr]
            simp only [if_true]
            rw [h5]; simp only [Out.ok_bind]; rw [k4]; simp
          · right
            rw [scanChange, if_pos rfl, readBellExpr]
            simp only [if_true]
            rw [h5]; simp only [Out.ok_bind]; exact k
        · right
          rw [scanChange, if_pos rfl, readBellExpr]
          simp only [if_true]
          rw [h]; rfl
      · by_cases h2 : isAlnum c = true ∧ c ≠ 'X' ∧ c ≠ 'x'
        · have e : scanChange endc (f + 1) (c :: cs) acc = scanChange endc f cs (acc ++ [c]) := by
            rw [scanChange, if_neg h1, if_pos h2]
          rcases ih cs (acc ++ [c]) (by omega) with ⟨t, rest', k1, k2, k3, k4⟩ | k
          · left
            exact ⟨c :: t, rest', by rw [k1]; rfl, .sym h2.1 h2.2.1 h2.2.2 k2, k3, by rw [e, k4]; simp⟩
          · right; rw [e, k]
        · left
          exact ⟨[], c :: cs, rfl, .nil, .inr ⟨c, cs, rfl, h1, h2⟩, by
            rw [scanChange, if_neg h1, if_neg h2]; simp⟩

/-! ### White space and separators -/

theorem skipWs_split (s : List Char) : ∃ w, White w ∧ s = w ++ skipWs s ∧
    (∀ c cs, skipWs s = c :: cs → Bell.isSpace c = false) := by
  refine ⟨s.takeWhile Bell.isSpace, ?_, (List.takeWhile_append_dropWhile).symm, ?_⟩
  · intro c hc
    have := List.all_takeWhile (l := s) (p := Bell.isSpace)
    exact (List.all_eq_true.1 this) c hc
  · intro c cs h
    have := List.head?_dropWhile_not (p := Bell.isSpace) (l := s)
    unfold skipWs at h
    rw [h] at this; simpa using this

theorem skipWs_white {w s : List Char} (hw : White w) (hs : ∀ c cs, s = c :: cs → Bell.isSpace c = false) :
    skipWs (w ++ s) = s := by
  unfold skipWs
  rw [List.dropWhile_append_of_pos hw]
  cases s with
  | nil => rfl
  | cons c cs => rw [List.dropWhile_cons_of_neg (by simp [hs c cs rfl])]

theorem skipWs_self {s : List Char} (hs : ∀ c cs, s = c :: cs → Bell.isSpace c = false) : skipWs s = s :=
  skipWs_white (w := []) (by simp [White]) hs

theorem skipSep_complete {d : Char} {w s : List Char} (hd : Bell.isSpace d = false) (hw : Sep d w)
    (hs : ∀ c cs, s = c :: cs → Bell.isSpace c = false ∧ c ≠ d) : skipSep d (w ++ s) = s := by
  have hs' : ∀ c cs, s = c :: cs → Bell.isSpace c = false := fun c cs h => (hs c cs h).1
  rcases hw with hw | ⟨a, b, ha, hb, rfl⟩
  · unfold skipSep
    rw [skipWs_white hw hs']
    cases s with
    | nil => rfl
    | cons c cs =>
      simp only
      rw [if_neg (hs c cs rfl).2, skipWs_self hs']
  · unfold skipSep
    rw [List.append_assoc, List.cons_append, skipWs_white ha (by rintro c cs h; cases h; exact hd)]
    simp only [if_true]
    rw [skipWs_white hb hs']

theorem skipSep_split (d : Char) (s : List Char) : ∃ w, Sep d w ∧ s = w ++ skipSep d s := by
  obtain ⟨w, hw, h1, h2⟩ := skipWs_split s
  unfold skipSep
  cases h : skipWs s with
  | nil => exact ⟨w, .inl hw, by rw [h] at h1; exact h1⟩
  | cons c cs =>
    simp only
    rw [h] at h1
    by_cases hc : c = d
    · rw [if_pos hc]
      obtain ⟨v, hv, k1, -⟩ := skipWs_split cs
      refine ⟨w ++ d :: v, .inr ⟨w, v, hw, hv, rfl⟩, ?_⟩
      rw [List.append_assoc, List.cons_append, ← k1, ← hc]; exact h1
    · rw [if_neg hc, skipWs_self (by rintro c' cs' h'; cases h'; exact h2 c cs h)]
      exact ⟨w, .inl hw, h1⟩

theorem skipSep_length (d : Char) (s : List Char) : (skipSep d s).length ≤ s.length := by
  obtain ⟨w, -, h⟩ := skipSep_split d s
  have := congrArg List.length h
  simp at this; omega

theorem skipWs_skipWs (s : List Char) : skipWs (skipWs s) = skipWs s := by
  obtain ⟨w, -, -, h⟩ := skipWs_split s
  exact skipWs_self h

theorem skipSep_nonspace (d : Char) (s : List Char) :
    ∀ c cs, skipSep d s = c :: cs → Bell.isSpace c = false := by
  unfold skipSep
  split
  · intro c cs h; cases h
  · rename_i c' cs' _
    split
    · obtain ⟨-, -, -, h⟩ := skipWs_split cs'; exact h
    · obtain ⟨-, -, -, h⟩ := skipWs_split (c' :: cs'); exact h

/-! ### Blocks -/

theorem startsChange_facts {c : Char} (h : startsChange c = true) :
    Bell.isSpace c = false ∧ c ≠ '.' ∧ c ≠ ',' ∧ c ≠ '&' ∧ c ≠ '+' := by
  unfold startsChange isAlnum at h
  simp only [decide_eq_true_eq] at h
  have key : ∀ d : Char, (Bell.isSpace d = true ∨ d = '.' ∨ d = ',' ∨ d = '&' ∨ d = '+') →
      ¬ (('0' ≤ d ∧ d ≤ '9') ∨ ('A' ≤ d ∧ d ≤ 'Z') ∨ ('a' ≤ d ∧ d ≤ 'z')) ∧ d ≠ '-' ∧ d ≠ '{' := by
    rintro d (h | rfl | rfl | rfl | rfl)
    · unfold Bell.isSpace at h
      simp only [decide_eq_true_eq] at h
      rcases h with rfl | rfl | rfl | rfl | rfl | rfl <;> decide
    all_goals decide
  refine ⟨?_, ?_, ?_, ?_, ?_⟩
  · by_contra hc
    have := key c (.inl (by simpa using hc)); simp_all
  all_goals
    rintro rfl
    exact absurd h (by decide)

theorem placeText_head {t : List Char} (ht : PlaceText t) (h : t ≠ []) :
    ∃ c cs, t = c :: cs ∧ startsChange c = true ∧ ¬ IsCross c := by
  cases ht with
  | nil => exact absurd rfl h
  | sym h1 h2 h3 h4 =>
    refine ⟨_, _, rfl, by simp [startsChange, h1], ?_⟩
    rintro (e | e | e)
    · exact h2 e
    · exact h3 e
    · rw [e] at h1; exact absurd h1 (by decide)
  | brace h1 h2 => exact ⟨_, _, rfl, by decide, by unfold IsCross; decide⟩

theorem isCross_starts {x : Char} (h : IsCross x) : startsChange x = true := by
  rcases h with rfl | rfl | rfl <;> decide

theorem blockText_head {n : Nat} {s : List Char} {cs : List Change} (h : BlockText n s cs) :
    s = [] ∨ ∃ c t, s = c :: t ∧ startsChange c = true := by
  cases h with
  | nil => left; rfl
  | cross h1 => right; exact ⟨_, _, rfl, isCross_starts h1⟩
  | place h1 h2 =>
    right
    obtain ⟨c, t, rfl, h, -⟩ := placeText_head h2 h1
    exact ⟨c, _, rfl, h⟩

/-- What follows a block: nothing, or a comma. -/
def AfterBlock (s : List Char) : Prop := s = [] ∨ ∃ t, s = ',' :: t

theorem block_rest_head {n : Nat} {s rest : List Char} {cs : List Change} (h : BlockText n s cs)
    (hr : AfterBlock rest) : ∀ c t, s ++ rest = c :: t → Bell.isSpace c = false ∧ c ≠ '.' := by
  intro c t e
  rcases blockText_head h with rfl | ⟨c', t', rfl, h'⟩
  · rcases hr with rfl | ⟨u, rfl⟩
    · cases e
    · cases e; decide
  · cases e; have := startsChange_facts h'; exact ⟨this.1, this.2.1⟩

theorem stop_of {w s rest : List Char} (hw : Sep '.' w)
    (h : w = [] → s = [] ∨ ∃ x s', s = x :: s' ∧ IsCross x) (hr : AfterBlock rest) :
    Stop (w ++ (s ++ rest)) := by
  cases w with
  | nil =>
    rcases h rfl with rfl | ⟨x, s', rfl, hx⟩
    · rcases hr with rfl | ⟨u, rfl⟩
      · left; rfl
      · right; exact ⟨_, _, rfl, by decide, by decide⟩
    · right; refine ⟨_, _, rfl, ?_, ?_⟩
      · rcases hx with rfl | rfl | rfl <;> decide
      · rcases hx with rfl | rfl | rfl <;> decide
  | cons c w =>
    right
    refine ⟨c, _, rfl, ?_⟩
    have : Bell.isSpace c = true ∨ c = '.' := by
      rcases hw with hw | ⟨a, b, ha, -, e⟩
      · left; exact hw c (by simp)
      · cases a with
        | nil => cases e; right; rfl
        | cons a0 a => cases e; left; exact ha _ (by simp)
    rcases this with h | rfl
    · unfold Bell.isSpace at h
      simp only [decide_eq_true_eq] at h
      rcases h with rfl | rfl | rfl | rfl | rfl | rfl <;> decide
    · decide

theorem readBlock_complete {endc : Out Char} {n : Nat} {s : List Char} {cs : List Change}
    (h : BlockText n s cs) (he : EndOk endc ∨ '{' ∉ s) {rest : List Char} (hr : AfterBlock rest) :
    ∀ {fuel : Nat} {acc : List Change}, (s ++ rest).length ≤ fuel →
      readBlock endc n fuel (s ++ rest) acc = .ok (acc ++ cs, rest) := by
  induction h with
  | nil =>
    intro fuel acc hf
    rcases hr with rfl | ⟨u, rfl⟩
    · simp [readBlock]
    · obtain ⟨f, rfl⟩ : ∃ f, fuel = f + 1 := ⟨fuel - 1, by simp at hf; omega⟩
      rw [List.nil_append, readBlock, if_neg (by decide)]; simp
  | @cross x c w s cs h1 h2 h3 h4 ih =>
    intro fuel acc hf
    obtain ⟨f, rfl⟩ : ∃ f, fuel = f + 1 := ⟨fuel - 1, by simp at hf; omega⟩
    rw [List.cons_append, List.append_assoc, readBlock, if_pos (isCross_starts h1)]
    unfold IsCross at h1
    rw [if_pos h1, h2]
    simp only [Out.ok_bind]
    rw [skipSep_complete (by decide) h3 (block_rest_head h4 hr),
      ih (he.imp id (fun h => by simp at h; exact h.2.2)) (by simp at hf ⊢; omega)]
    simp
  | @place t c w s cs h0 h1 h2 h3 hns h4 ih =>
    intro fuel acc hf
    obtain ⟨c0, t0, ht, hst, hnc⟩ := placeText_head h1 h0
    obtain ⟨f, rfl⟩ : ∃ f, fuel = f + 1 := ⟨fuel - 1, by
      have : 0 < t.length := List.length_pos_iff.2 h0
      simp at hf; omega⟩
    have hsc := scanChange_complete (endc := endc) h1 (he.imp id (fun h => by simp at h; exact h.1))
      (stop_of h3 hns hr) (fuel := (t ++ (w ++ (s ++ rest))).length) (acc := []) le_rfl
    have e : t ++ (w ++ s) ++ rest = t ++ (w ++ (s ++ rest)) := by simp
    rw [e]
    have : readBlock endc n (f + 1) (t ++ (w ++ (s ++ rest))) acc =
        (scanChange endc (t ++ (w ++ (s ++ rest))).length (t ++ (w ++ (s ++ rest))) [] >>= fun tr => do
          let block ← pushChange n tr.1 acc
          readBlock endc n f (skipSep '.' tr.2) block) := by
      unfold IsCross at hnc
      rw [ht, List.cons_append, readBlock, if_pos hst, if_neg hnc]
    rw [this, hsc]
    simp only [Out.ok_bind, List.nil_append]
    unfold pushChange
    rw [if_pos h0, h2]
    simp only [Out.ok_bind]
    rw [skipSep_complete (by decide) h3 (block_rest_head h4 hr),
      ih (he.imp id (fun h => by simp at h; exact h.2.2)) (by
        have : 0 < t.length := List.length_pos_iff.2 h0
        simp at hf ⊢; omega)]
    simp

/-- Outcomes of a call that can only fail by rejecting the text. -/
def Rejects {α : Type} (x : Out α) : Prop :=
  x = .throw .bellInvalid ∨ x = .throw .changeInvalid ∨ x = .throw .pnInvalid

theorem ofPlacesLoop_cases (n : Nat) : ∀ (ps : List Nat) (b : Nat) (sw : List Nat),
    (∃ c, Change.ofPlacesLoop n ps b sw = .ok c) ∨
      Change.ofPlacesLoop n ps b sw = .throw .changeInvalid := by
  intro ps
  induction ps with
  | nil => intro b sw; left; exact ⟨_, rfl⟩
  | cons p ps ih =>
    intro b sw
    rw [Change.ofPlacesLoop]
    split
    · right; rfl
    · exact ih _ _

theorem ofStringC_cases (n : Nat) (s : List Char) :
    (∃ c, Change.ofStringC n s = .ok c) ∨ Rejects (Change.ofStringC n s) := by
  unfold Change.ofStringC
  split
  · split
    · right; right; left; rfl
    · left; exact ⟨_, rfl⟩
  · split
    · left; exact ⟨_, rfl⟩
    · rcases Row.readBells_cases s.length s le_rfl with ⟨ps, h, -⟩ | h
      · rw [Change.ofStringLoop_eq _ _ _ _ _ h]
        rcases ofPlacesLoop_cases n ps 0 [] with h | h
        · left; exact h
        · right; right; left; exact h
      · right
        rcases Change.ofStringLoop_bad _ _ 0 [] le_rfl h with h | h
        · left; exact h
        · right; left; exact h

theorem Rejects.bind {α β : Type} {x : Out α} (h : Rejects x) (f : α → Out β) : Rejects (x >>= f) := by
  rcases h with h | h | h <;> rw [h]
  · left; rfl
  · right; left; rfl
  · right; right; rfl

theorem readBlock_cases {endc : Out Char} (he : EndOk endc) (n : Nat) : ∀ (fuel : Nat) (s : List Char)
    (acc : List Change), s.length ≤ fuel →
    (∃ t rest cs, s = t ++ rest ∧ BlockText n t cs ∧
      (∀ c u, rest = c :: u → startsChange c = false) ∧
      readBlock endc n fuel s acc = .ok (acc ++ cs, rest)) ∨
    Rejects (readBlock endc n fuel s acc) := by
  intro fuel
  induction fuel with
  | zero =>
    intro s acc hs
    have : s = [] := by cases s; rfl; simp at hs
    subst this
    left; exact ⟨[], [], [], rfl, .nil, by simp, by simp [readBlock]⟩
  | succ f ih =>
    intro s acc hs
    cases s with
    | nil => left; exact ⟨[], [], [], rfl, .nil, by simp, by simp [readBlock]⟩
    | cons c cs =>
      simp only [List.length_cons] at hs
      by_cases h1 : startsChange c = true
      · by_cases h2 : c = 'X' ∨ c = 'x' ∨ c = '-'
        · rw [readBlock, if_pos h1, if_pos h2]
          rcases ofStringC_cases n ['X'] with ⟨ch, hch⟩ | h
          · rw [hch]; simp only [Out.ok_bind]
            rcases ih (skipSep '.' cs) (acc ++ [ch]) (by have := skipSep_length '.' cs; omega) with
              ⟨t, rest, ds, k1, k2, k3, k4⟩ | k
            · left
              obtain ⟨w, hw, e⟩ := skipSep_split '.' cs
              refine ⟨c :: (w ++ t), rest, ch :: ds, ?_, .cross h2 hch hw k2, k3, by rw [k4]; simp⟩
              rw [List.cons_append, List.append_assoc, ← k1, ← e]
            · right; exact k
          · right; exact h.bind _
        · rw [readBlock, if_pos h1, if_neg h2]
          rcases scanChange_cases he (c :: cs).length (c :: cs) [] le_rfl with ⟨t, rest, k1, k2, k3, k4⟩ | k
          · rw [k4]
            simp only [Out.ok_bind, List.nil_append]
            have ht : t ≠ [] := by
              rintro rfl
              rcases k3 with rfl | ⟨d, ds, rfl, k5, k6⟩
              · cases k1
              · cases k1
                unfold startsChange at h1
                simp only [decide_eq_true_eq] at h1
                rcases h1 with h | h | h
                · exact k6 ⟨h, fun e => h2 (.inl e), fun e => h2 (.inr (.inl e))⟩
                · exact h2 (.inr (.inr h))
                · exact k5 h
            unfold pushChange
            rw [if_pos ht]
            rcases ofStringC_cases n t with ⟨ch, hch⟩ | h
            · rw [hch]; simp only [Out.ok_bind]
              obtain ⟨w, hw, e⟩ := skipSep_split '.' rest
              rcases ih (skipSep '.' rest) (acc ++ [ch]) (by
                  have := skipSep_length '.' rest
                  have h3 := congrArg List.length k1
                  have : 0 < t.length := List.length_pos_iff.2 ht
                  simp at h3; omega) with ⟨t', rest', ds, j1, j2, j3, j4⟩ | k
              · left
                refine ⟨t ++ (w ++ t'), rest', ch :: ds, ?_, .place ht k2 hch hw ?_ j2, j3, by rw [j4]; simp⟩
                · rw [List.append_assoc, List.append_assoc, ← j1, ← e, ← k1]
                · rintro rfl
                  rcases blockText_head j2 with rfl | ⟨d, u, rfl, hd⟩
                  · left; rfl
                  · right
                    refine ⟨d, u, rfl, ?_⟩
                    rw [List.nil_append] at e
                    rw [← e] at j1
                    rw [j1] at k3
                    rcases k3 with h | ⟨d', u', h, k5, k6⟩
                    · cases h
                    · cases h
                      unfold startsChange at hd
                      simp only [decide_eq_true_eq] at hd
                      rcases hd with h | h | h
                      · by_contra hc
                        exact k6 ⟨h, fun e => hc (.inl e), fun e => hc (.inr (.inl e))⟩
                      · exact .inr (.inr h)
                      · exact absurd h k5
              · right; exact k
            · right; exact (h.bind _).bind _
          · right; rw [k]; left; rfl
      · left
        refine ⟨[], c :: cs, [], rfl, .nil, ?_, ?_⟩
        · rintro d u h; cases h; simpa using h1
        · rw [readBlock, if_neg h1]; simp

theorem blockOut_false (cs : List Change) : blockOut false cs = cs := by simp [blockOut]
theorem blockOut_true (cs : List Change) : blockOut true cs = cs ++ cs.dropLast.reverse := by
  unfold blockOut
  by_cases h : cs = []
  · subst h; simp
  · simp [h]

/-- The text after the prefix of a block and what it says. -/
theorem blockPN_step {endc : Out Char} {n : Nat} {s : List Char} {cs : List Change} (h : BlockPN n s cs)
    (he : EndOk endc ∨ '{' ∉ s) {rest : List Char} (hr : AfterBlock rest) {c : Char} {u : List Char}
    (e : s ++ rest = c :: u) {fuel : Nat} {out : List Change} :
    blocks endc n (fuel + 1) (c :: u) out =
      (endBlock rest >>= fun rest => blocks endc n fuel rest (out ++ cs)) := by
  cases h with
  | plain hb =>
    have hc : c ≠ '&' ∧ c ≠ '+' := by
      rcases blockText_head hb with rfl | ⟨c', t', rfl, h'⟩
      · rcases hr with rfl | ⟨v, rfl⟩
        · cases e
        · cases e; decide
      · cases e; have := startsChange_facts h'; exact ⟨this.2.2.2.1, this.2.2.2.2⟩
    rw [blocks]
    rw [if_neg (by simp [hc.1, hc.2]), ← e, readBlock_complete hb he hr le_rfl]
    simp only [Out.ok_bind, List.nil_append, decide_eq_false hc.1, blockOut_false]
  | @plus w s cs hw hb =>
    rw [List.cons_append, List.append_assoc] at e
    obtain ⟨rfl, rfl⟩ := List.cons.inj e
    rw [blocks, if_pos (by simp), skipSep_complete (by decide) hw (block_rest_head hb hr),
      readBlock_complete hb (he.imp id (fun h => by simp at h; exact h.2)) hr le_rfl]
    simp only [Out.ok_bind, List.nil_append]
    rw [show decide ('+' = '&') = false by decide, blockOut_false]
  | @sym w s cs hw hb =>
    rw [List.cons_append, List.append_assoc] at e
    obtain ⟨rfl, rfl⟩ := List.cons.inj e
    rw [blocks, if_pos (by simp), skipSep_complete (by decide) hw (block_rest_head hb hr),
      readBlock_complete hb (he.imp id (fun h => by simp at h; exact h.2)) hr le_rfl]
    simp only [Out.ok_bind, List.nil_append]
    simp only [decide_true, blockOut_true]

theorem pnText_head {n : Nat} {s : List Char} {cs : List Change} (h : PNText n s cs) :
    ∀ c t, s = c :: t → Bell.isSpace c = false := by
  have hb : ∀ {s cs}, BlockPN n s cs → ∀ c t, s = c :: t → Bell.isSpace c = false := by
    intro s cs h c t e
    cases h with
    | plain hb =>
      rcases blockText_head hb with rfl | ⟨c', t', rfl, h'⟩
      · cases e
      · cases e; exact (startsChange_facts h').1
    | plus => cases e; decide
    | sym => cases e; decide
  intro c t e
  cases h with
  | nil => cases e
  | one h => exact hb h c t e
  | @more s w u cs ds h1 h2 h3 =>
    cases s with
    | nil => cases e; decide
    | cons x s => cases e; exact hb h1 _ _ rfl

theorem skipSep_comma {n : Nat} {w u : List Char} {ds : List Change} (hw : White w) (h : PNText n u ds) :
    skipSep ',' (',' :: (w ++ u)) = u := by
  unfold skipSep
  rw [skipWs_self (by rintro c cs h; cases h; decide)]
  simp only [if_true]
  exact skipWs_white hw (pnText_head h)

theorem blocks_complete {endc : Out Char} {n : Nat} {s : List Char} {cs : List Change}
    (h : PNText n s cs) (he : EndOk endc ∨ '{' ∉ s) : ∀ {fuel : Nat} {out : List Change},
    s.length ≤ fuel → blocks endc n fuel s out = .ok (out ++ cs) := by
  induction h with
  | nil => intro fuel out _; simp [blocks]
  | @one s cs hb =>
    intro fuel out hf
    cases s with
    | nil =>
      have : cs = [] := by
        generalize hs : ([] : List Char) = s at hb
        cases hb with
        | plain hb =>
          cases hb with
          | nil => rfl
          | cross => cases hs
          | place h1 _ _ _ _ _ => exact absurd (List.append_eq_nil_iff.1 hs.symm).1 h1
        | plus => cases hs
        | sym => cases hs
      subst this; simp [blocks]
    | cons c u =>
      obtain ⟨f, rfl⟩ : ∃ f, fuel = f + 1 := ⟨fuel - 1, by simp at hf; omega⟩
      rw [blockPN_step hb he (rest := []) (.inl rfl) (by simp)]
      simp [blocks, endBlock]
  | @more s w u cs ds hb hw hu ih =>
    intro fuel out hf
    obtain ⟨f, rfl⟩ : ∃ f, fuel = f + 1 := ⟨fuel - 1, by simp at hf; omega⟩
    obtain ⟨c, v, e⟩ : ∃ c v, s ++ ',' :: (w ++ u) = c :: v := by
      cases s with
      | nil => exact ⟨_, _, rfl⟩
      | cons c s => exact ⟨_, _, rfl⟩
    rw [e, blockPN_step hb (he.imp id (fun h => by simp at h; exact h.1)) (rest := ',' :: (w ++ u))
      (.inr ⟨_, rfl⟩) e]
    unfold endBlock
    simp only [ne_eq, not_true_eq_false, if_false, Out.ok_bind]
    rw [skipSep_comma hw hu, ih (he.imp id (fun h => by simp at h; exact h.2.2)) (by simp at hf ⊢; omega)]
    simp

theorem blocks_cases {endc : Out Char} (he : EndOk endc) (n : Nat) : ∀ (fuel : Nat) (s : List Char)
    (out : List Change), s.length ≤ fuel →
    (∃ cs, PNText n s cs ∧ blocks endc n fuel s out = .ok (out ++ cs)) ∨
    Rejects (blocks endc n fuel s out) := by
  intro fuel
  induction fuel with
  | zero =>
    intro s out hs
    have : s = [] := by cases s; rfl; simp at hs
    subst this
    left; exact ⟨[], .nil, by simp [blocks]⟩
  | succ f ih =>
    intro s out hs
    cases s with
    | nil => left; exact ⟨[], .nil, by simp [blocks]⟩
    | cons c cs =>
      simp only [List.length_cons] at hs
      -- the text after the prefix
      obtain ⟨pre, s', e, hs', hl, hpn⟩ : ∃ pre s', c :: cs = pre ++ s' ∧
          (if c = '&' ∨ c = '+' then skipSep '.' cs else c :: cs) = s' ∧
          (c :: cs).length ≥ s'.length + pre.length ∧
          (∀ t rest ds, s' = t ++ rest → BlockText n t ds →
            BlockPN n (pre ++ t) (blockOut (c = '&') ds)) := by
        by_cases h : c = '&' ∨ c = '+'
        · obtain ⟨w, hw, e⟩ := skipSep_split '.' cs
          refine ⟨c :: w, skipSep '.' cs, by rw [List.cons_append, ← e], by rw [if_pos h], ?_, ?_⟩
          · have := congrArg List.length e; simp at this ⊢; omega
          · intro t rest ds _ hb
            rcases h with rfl | rfl
            · rw [show decide ('&' = '&') = true by decide, blockOut_true]
              exact .sym hw hb
            · rw [show decide ('+' = '&') = false by decide, blockOut_false]
              exact .plus hw hb
        · refine ⟨[], c :: cs, rfl, by rw [if_neg h], by simp, ?_⟩
          intro t rest ds _ hb
          rw [decide_eq_false (fun e => h (.inl e)), blockOut_false]
          exact .plain hb
      rw [blocks, hs']
      rcases readBlock_cases he n s'.length s' [] le_rfl with ⟨t, rest, ds, k1, k2, k3, k4⟩ | k
      · rw [k4]
        simp only [Out.ok_bind, List.nil_append]
        have hb := hpn t rest ds k1 k2
        cases rest with
        | nil =>
          left
          refine ⟨_, by rw [e, k1, List.append_nil]; exact .one hb, ?_⟩
          simp [blocks, endBlock]
        | cons d rest' =>
          by_cases hd : d = ','
          · subst hd
            unfold endBlock
            simp only [ne_eq, not_true_eq_false, if_false, Out.ok_bind]
            have e2 : skipSep ',' (',' :: rest') = skipWs rest' := by
              unfold skipSep
              rw [skipWs_self (by rintro c cs h; cases h; decide)]
              simp only [if_true]
            rw [e2]
            obtain ⟨w, hw, e3, -⟩ := skipWs_split rest'
            have len3 := congrArg List.length e3
            have len4 := congrArg List.length k1
            rcases ih (skipWs rest') (out ++ blockOut (c = '&') ds) (by simp at len3 len4 hl; omega) with
              ⟨cs', j1, j2⟩ | j
            · left
              refine ⟨_, by rw [e, k1, e3, ← List.append_assoc]; exact .more hb hw j1, ?_⟩
              rw [j2]; simp
            · right; exact j
          · right
            unfold endBlock
            simp only [ne_eq, hd, not_false_eq_true, if_true, Out.throw_bind]
            exact .inr (.inr rfl)
      · right; exact k.bind _

end PN
end Ringing
