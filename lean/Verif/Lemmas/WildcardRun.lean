import Verif.Lemmas.WildcardCount
/-! `row_wildcard::possible_matches` counts the rows. -/
namespace Ringing
open Spec Wildcard

theorem text_append (p q : List Tok) : text (p ++ q) = text p ++ text q := by
  induction p with
  | nil => rfl
  | cons t p ih => cases t <;> simp [text, ih]

theorem symbol_eq {x : Nat} (hx : x < 33) : symbol x = Bell.toChar x := by
  have : ∀ i : Fin 33, symbol i.1 = Bell.toChar i.1 := by decide
  exact this ⟨x, hx⟩

theorem bellChar_symbol {x : Nat} (hx : x < 33) : BellChar (symbol x) x := by
  have : ∀ i : Fin 33, "1234567890ETABCDFGHJKLMNPQRSUVWYZ".toList[i.1]? = some (symbol i.1).toUpper := by decide
  exact Or.inl (this ⟨x, hx⟩)

theorem symbol_inj {x y : Nat} (hx : x < 33) (hy : y < 33) (h : symbol x = symbol y) : x = y := by
  have h1 := (bellChar (bellChar_symbol hx)).2.1
  have h2 := (bellChar (bellChar_symbol hy)).2.1
  rw [h, h2] at h1
  injection h1 with h1
  exact h1.symm

theorem spells_text {p : List Tok} (h : ∀ x ∈ named p, x < 33) : Spells p (text p) := by
  induction p with
  | nil => exact .nil
  | cons t p ih =>
    cases t with
    | bell x => exact .bell (bellChar_symbol (h x (by simp [named]))) (ih fun y hy => h y (by simp [named, hy]))
    | any => exact .any (ih fun y hy => h y (by simp [named, hy]))
    | star => exact .star (ih fun y hy => h y (by simp [named, hy]))
    | set l =>
      refine .set ?_ (ih fun y hy => h y (by simp [named, hy]))
      rw [List.forall₂_map_left_iff, List.forall₂_same]
      intro x hx
      exact bellChar_symbol (h x (by simp [named, hx]))

theorem named_append (p q : List Tok) : named (p ++ q) = named p ++ named q := by
  induction p with
  | nil => rfl
  | cons t p ih => cases t <;> simp [named, ih]

theorem fixed_named {d : List Tok} {x : Nat} (h : x ∈ fixed d) : x ∈ named d := by
  replace h := fixed_mem.1 h
  induction d with
  | nil => simp at h
  | cons t d ih =>
    rcases List.mem_cons.1 h with rfl | h
    · simp [named]
    · have h1 := ih h
      cases t <;> simp [named, h1]

theorem mem_text_bare {d : List Tok} (hd : Bare d) (hn : ∀ x ∈ fixed d, x < 33) {x : Nat} (hx : x < 33) :
    symbol x ∈ text d ↔ x ∈ fixed d := by
  induction d with
  | nil => simp [text, fixed]
  | cons t d ih =>
    have hd' : Bare d := fun t ht => hd t (List.mem_cons_of_mem _ ht)
    rcases hd t (by simp) with rfl | ⟨y, rfl⟩
    · have : symbol x ≠ '?' := fun e => (bellChar (bellChar_symbol hx)).2.2.1 (Or.inl e)
      rw [text, List.mem_cons, ih hd' hn]
      simp [this, fixed]
    · have hy : y < 33 := hn y (by simp [fixed])
      rw [text, List.mem_cons, ih hd' (fun x hx => hn x (by simp [fixed] at hx ⊢; exact Or.inr hx))]
      have : symbol x = symbol y ↔ x = y := ⟨symbol_inj hx hy, fun e => by rw [e]⟩
      simp [fixed, this]

theorem find_first {a u v : List Char} {c : Char} (h : c ∉ u) : find (a ++ (u ++ c :: v)) c a.length = a.length + u.length := by
  have : (u ++ c :: v).findIdx? (· == c) = some u.length := by
    induction u with
    | nil => simp [List.findIdx?_cons]
    | cons x u ih =>
      have hx : (x == c) = false := by simpa using fun e : x = c => h (by simp [e])
      rw [List.cons_append, List.findIdx?_cons, hx, ih (fun h' => h (by simp [h']))]
      simp
  rw [find, List.drop_left, this]

theorem find_earlier {a u v : List Char} {c : Char} (h : c ∈ u) : find (a ++ (u ++ v)) c a.length ≠ a.length + u.length := by
  have : ∃ i, (u ++ v).findIdx? (· == c) = some i ∧ i < u.length := by
    induction u with
    | nil => simp at h
    | cons x u ih =>
      by_cases hx : x = c
      · exact ⟨0, by simp [List.findIdx?_cons, hx], by simp⟩
      · have hc : c ∈ u := by
          rcases List.mem_cons.1 h with e | e
          · exact absurd e.symm hx
          · exact e
        obtain ⟨i, h1, h2⟩ := ih hc
        refine ⟨i + 1, ?_, by simpa using h2⟩
        rw [List.cons_append, List.findIdx?_cons, beq_false_of_ne hx, h1]
        simp
  obtain ⟨i, h1, h2⟩ := this
  rw [find, List.drop_left, h1]
  simp; omega

/-- The weight of the tokens: how many steps they take. -/
def wt (b : Nat) : Tok → Nat
  | .bell _ => 1
  | .any => 1
  | .set _ => 2
  | .star => b + 2

open Classical in
/-- How many steps are left. -/
noncomputable def meas (b : Nat) (d z : List Tok) : Nat :=
  (z.map (wt b)).sum + if Tok.star ∈ z ∨ b ≤ ones (d ++ z) then 0 else b + 3

theorem _root_.Spec.Anchored.tail {t : Tok} {z : List Tok} (h : Anchored (t :: z)) : Anchored z :=
  fun y hy => h y (hy.trans (List.suffix_cons _ _))

theorem _root_.Spec.Anchored.cons {t : Tok} {z : List Tok} (h : Anchored z) (ht : t ≠ .star) : Anchored (t :: z) := by
  intro y hy
  rcases List.suffix_cons_iff.1 hy with e | hy
  · injection e with e _; exact absurd e.symm ht
  · exact h y hy

theorem _root_.Spec.Anchored.anys {z : List Tok} (h : Anchored z) (i : Nat) : Anchored (List.replicate i .any ++ z) := by
  induction i with
  | zero => exact h
  | succ i ih => rw [List.replicate_succ, List.cons_append]; exact ih.cons (by simp)

theorem _root_.Spec.Later.anys {z : List Tok} (h : Later z) (i : Nat) : Later (List.replicate i .any ++ z) := by
  induction i with
  | zero => exact h
  | succ i ih =>
    rw [List.replicate_succ, List.cons_append]
    exact List.pairwise_cons.2 ⟨fun u _ l x e => (by cases e), ih⟩

theorem named_anys (i : Nat) : named (List.replicate i .any) = [] := by
  induction i with
  | zero => rfl
  | succ i ih => rw [List.replicate_succ, named, ih]

theorem fixed_anys (i : Nat) : fixed (List.replicate i .any) = [] := by
  induction i with
  | zero => rfl
  | succ i ih => rw [List.replicate_succ]; exact ih

theorem expandStar_text (d y : List Tok) (i : Nat) :
    expandStar (text (d ++ .star :: y)) (text d).length i = text (d ++ (List.replicate i .any ++ y)) := by
  have : ∀ i, text (List.replicate i .any ++ y) = List.replicate i '?' ++ text y := by
    intro i
    induction i with
    | zero => rfl
    | succ i ih => rw [List.replicate_succ, List.cons_append, text, ih]; rfl
  rw [expandStar, text_append, text_append, this, List.take_left, List.append_assoc]
  congr 2
  rw [show (text d).length + 1 = (text d ++ ['*']).length by simp, text,
    show text d ++ '*' :: text y = (text d ++ ['*']) ++ text y by simp, List.drop_left]

theorem needInter_text {y : List Tok} (hy : ∀ x ∈ named y, x < 33) {y1 y2 : List Tok} {x : Nat} (h : y = y1 ++ .bell x :: y2)
    (hs : Tok.star ∉ y1) : needInter ((text y).takeWhile (· ≠ '*')) false = false := by
  subst h
  have hne : ∀ {z : Nat}, z < 33 → symbol z ≠ '?' ∧ symbol z ≠ '[' ∧ symbol z ≠ ']' ∧ symbol z ≠ '*' := by
    intro z hz
    have := (bellChar (bellChar_symbol hz)).2.2.1
    unfold Special at this
    push Not at this
    exact ⟨this.1, this.2.1, this.2.2.1, this.2.2.2.1⟩
  induction y1 with
  | nil =>
    have hx := hy x (by simp [named])
    rw [List.nil_append, text, List.takeWhile_cons_of_pos (by simpa using (hne hx).2.2.2), needInter, if_neg (hne hx).2.1,
      if_neg (hne hx).2.2.1, if_pos ⟨rfl, (bellChar (bellChar_symbol hx)).1⟩]
  | cons t y1 ih =>
    have ih := ih (fun h => hs (List.mem_cons_of_mem _ h)) (fun z hz => hy z (by
      rw [List.cons_append]; cases t <;> simp only [named, List.mem_cons, List.mem_append, hz, or_true]))
    cases t with
    | star => simp at hs
    | any =>
      rw [List.cons_append, text, List.takeWhile_cons_of_pos (by decide), needInter, if_neg (by decide), if_neg (by decide), if_neg (by decide), ih]
    | bell z =>
      have hz := hy z (by simp [named])
      rw [List.cons_append, text, List.takeWhile_cons_of_pos (by simpa using (hne hz).2.2.2), needInter, if_neg (hne hz).2.1,
        if_neg (hne hz).2.2.1, if_pos ⟨rfl, (bellChar (bellChar_symbol hz)).1⟩]
    | set l =>
      rw [List.cons_append, text, List.takeWhile_cons_of_pos (by decide), needInter, if_pos rfl]
      have hl : ∀ z ∈ l, z < 33 := fun z hz => hy z (by simp [named, hz])
      clear hy hs
      induction l with
      | nil =>
        rw [List.map_nil, List.nil_append, List.takeWhile_cons_of_pos (by decide), needInter, if_neg (by decide), if_pos rfl, ih]
      | cons z l ihl =>
        have hz := hl z (by simp)
        rw [List.map_cons, List.cons_append, List.takeWhile_cons_of_pos (by simpa using (hne hz).2.2.2), needInter, if_neg (hne hz).2.1,
          if_neg (hne hz).2.2.1, if_neg (by simp), ihl (fun z hz => hl z (by simp [hz]))]

theorem u64_add (a c : Nat) : u64 (u64 a + u64 c) = u64 (a + c) := by simp [u64, Nat.add_mod]

theorem full_star {p : List Tok} (h : Tok.star ∈ p) : full p = p := by rw [full, if_pos h]

theorem rowsOf_full {b : Nat} {p : List Tok} (hs : Tok.star ∉ p) (hl : p.length = b) : rowsOf b (full p) = rowsOf b p := by
  apply rowsOf_congr
  intro r hr
  rw [full, if_neg hs, matches_append]
  constructor
  · rintro ⟨a, t, rfl, h, -⟩
    have := matches_length hs h
    have : t = [] := List.length_eq_zero_iff.1 (by simp at hr; omega)
    rw [this, List.append_nil]; exact h
  · intro h; exact ⟨r, [], by simp, h, matches_star []⟩

/-- `possible_matches` from a position up to which there are only bells and question marks. -/
theorem possible_spec {b : Nat} (hb : b < 2 ^ 32) : ∀ (fuel : Nat) (d z : List Tok), meas b d z < fuel → Bare d →
    (∀ x ∈ named (d ++ z), x < 33 ∧ x < b) → (fixed (d ++ z)).Nodup → Later z → Anchored z → ones (d ++ z) ≤ b →
    ∃ V, possibleC b fuel (text d).length (text (d ++ z)) (d.count .any) = .ok (u64 V) ∧
      (rowsOf b (full (d ++ z))).card = V * (d.count .any).factorial := by
  intro fuel
  induction fuel with
  | zero => intro d z h; omega
  | succ fuel ih =>
    intro d z hm hd hx hf hl ha ho
    have hds := hd.noStar
    have hdo := MNode.ones_of_noStar hds
    have hsp := spells_text fun x h => (hx x h).1
    have hcount := spells_count hsp
    have hget : (text (d ++ z))[(text d).length]? = (text z).head? := by
      rw [text_append, List.getElem?_append_right (Nat.le_refl _), Nat.sub_self, List.head?_eq_getElem?]
    cases z with
    | nil =>
      rw [possibleC, hget]
      simp only [text, List.head?_nil]
      rw [hcount, List.append_nil, hdo]
      rw [List.append_nil, hdo] at ho
      by_cases hlt : d.length < b
      · rw [if_pos hlt]
        have hm' : meas b d [.star] < fuel := by
          have : meas b d [] = b + 3 := by simp [meas, hdo]; omega
          rw [this] at hm
          simp [meas, wt]; omega
        obtain ⟨V, h1, h2⟩ := ih d [.star] hm' hd (by simpa [named_append, named] using hx) (by simpa [fixed_append, fixed] using hf)
          (by simp [Later]) (by
            intro y hy hst
            rcases List.suffix_cons_iff.1 hy with e | hy
            · injection e with _ e; subst e; simp at hst
            · simp at hy) (by rw [ones_append, hdo]; simp [ones]; omega)
        refine ⟨V, by rw [← h1, text_append]; rfl, ?_⟩
        rw [← h2, full, if_neg hds, full, if_pos (by simp)]
      · rw [if_neg hlt]
        refine ⟨1, by simp [u64], ?_⟩
        have hdl : d.length = b := by omega
        rw [rowsOf_full hds hdl, card_bare hd (by simpa using hf) (fun x hx' => (hx x (by
          rw [List.append_nil]
          exact fixed_named hx')).2) hdl, Nat.one_mul]
    | cons t z =>
      have hlz : Later z := (List.pairwise_cons.1 hl).2
      have haz : Anchored z := ha.tail
      have e : ∀ u : Tok, d ++ u :: z = (d ++ [u]) ++ z := fun u => by simp
      cases t with
      | bell x =>
        have hx33 := (hx x (by simp [named_append, named])).1
        rw [possibleC, hget]
        simp only [text, List.head?_cons]
        rw [if_pos (bellChar (bellChar_symbol hx33)).1]
        have hlen : (text d).length + 1 = (text (d ++ [.bell x])).length := by rw [text_append]; simp [text]
        have hc : d.count .any = (d ++ [Tok.bell x]).count .any := by simp
        rw [hlen, e, hc]
        refine ih _ z ?_ ?_ (by rw [← e]; exact hx) (by rw [← e]; exact hf) hlz haz (by rw [← e]; exact ho)
        · unfold meas at hm ⊢
          rw [← e]
          simp only [List.map_cons, wt, List.sum_cons, List.mem_cons, reduceCtorEq, false_or] at hm
          omega
        · intro t ht
          rcases List.mem_append.1 ht with ht | ht
          · exact hd t ht
          · simp at ht; exact Or.inr ⟨x, ht⟩
      | any =>
        rw [possibleC, hget]
        simp only [text, List.head?_cons]
        rw [if_neg (by decide), if_pos trivial]
        have hlen : (text d).length + 1 = (text (d ++ [.any])).length := by rw [text_append]; simp [text]
        have hc : d.count .any + 1 = (d ++ [Tok.any]).count .any := by simp
        obtain ⟨V, h1, h2⟩ := ih (d ++ [.any]) z (by
            unfold meas at hm ⊢
            rw [← e]
            simp only [List.map_cons, wt, List.sum_cons, List.mem_cons, reduceCtorEq, false_or] at hm
            omega) (by
            intro t ht
            rcases List.mem_append.1 ht with ht | ht
            · exact hd t ht
            · simp at ht; exact Or.inl ht) (by rw [← e]; exact hx) (by rw [← e]; exact hf) hlz haz (by rw [← e]; exact ho)
        rw [← hlen, ← hc, ← e] at h1
        rw [← hc, ← e] at h2
        refine ⟨V * (d.count .any + 1), ?_, ?_⟩
        · rw [h1, Out.ok_bind]; simp [u64, Nat.mod_mul_mod]
        · rw [h2, Nat.factorial_succ, Nat.mul_assoc]
      | set l =>
        have hlx : ∀ x ∈ l, x < 33 ∧ x < b := fun x h => hx x (by simp [named_append, named, h])
        have hsl : ∀ x ∈ l, symbol x ≠ ']' ∧ symbol x ≠ '[' := by
          intro x h
          have := (bellChar (bellChar_symbol (hlx x h).1)).2.2.1
          unfold Special at this
          push Not at this
          exact ⟨this.2.2.1, this.2.1⟩
        have hfd : ∀ x ∈ fixed d, x < 33 := by
          intro x hx'
          refine (hx x ?_).1
          rw [named_append]
          refine List.mem_append_left _ ?_
          exact fixed_named hx'
        have hlater : ∀ x ∈ l, x ∉ fixed z := by
          intro x hxl hxz
          exact (List.pairwise_cons.1 hl).1 _ (fixed_mem.1 hxz) l x rfl rfl hxl
        have key : ∀ x, x ∈ l ∧ x ∉ fixed d → ∃ V, possibleC b fuel (text d).length (text (d ++ .bell x :: z)) (d.count .any) = .ok (u64 V) ∧
            (rowsOf b (full (d ++ .bell x :: z))).card = V * (d.count .any).factorial := by
          rintro x ⟨hxl, hxd⟩
          refine ih d (.bell x :: z) ?_ hd ?_ ?_ ?_ (haz.cons (by simp)) ?_
          · have h1 : ones (d ++ .bell x :: z) = ones (d ++ .set l :: z) := by simp [ones]
            unfold meas at hm ⊢
            rw [h1]
            simp only [List.map_cons, wt, List.sum_cons, List.mem_cons, reduceCtorEq, false_or] at hm ⊢
            omega
          · intro y hy
            rw [named_append, named, List.mem_append, List.mem_cons] at hy
            rcases hy with hy | rfl | hy
            · exact hx y (by rw [named_append]; simp [hy])
            · exact hlx y hxl
            · exact hx y (by rw [named_append, named]; simp [hy])
          · rw [fixed_append] at hf ⊢
            have h1 : fixed (.set l :: z) = fixed z := rfl
            have h2 : fixed (.bell x :: z) = x :: fixed z := rfl
            rw [h1] at hf
            rw [h2, List.nodup_middle, List.nodup_cons]
            exact ⟨fun h => by
              rcases List.mem_append.1 h with h | h
              · exact hxd h
              · exact hlater x hxl h, hf⟩
          · exact List.pairwise_cons.2 ⟨fun u _ l' y e => (by cases e), hlz⟩
          · have h1 : ones (d ++ .bell x :: z) = ones (d ++ .set l :: z) := by simp [ones]
            rw [h1]; exact ho
        have key' : ∀ x, ∃ V, x ∈ l ∧ x ∉ fixed d → possibleC b fuel (text d).length (text (d ++ .bell x :: z)) (d.count .any) = .ok (u64 V) ∧
            (rowsOf b (full (d ++ .bell x :: z))).card = V * (d.count .any).factorial := by
          intro x
          by_cases h : x ∈ l ∧ x ∉ fixed d
          · obtain ⟨V, h'⟩ := key x h; exact ⟨V, fun _ => h'⟩
          · exact ⟨0, fun h' => absurd h' h⟩
        choose V hV using key'
        have hs0 : text (d ++ .set l :: z) = text d ++ '[' :: (l.map symbol ++ ']' :: text z) := by rw [text_append]; rfl
        have hlast : find (text (d ++ .set l :: z)) ']' ((text d).length + 1) = (text d).length + 1 + l.length := by
          rw [hs0]
          have := find_first (a := text d ++ ['[']) (u := l.map symbol) (v := text z) (c := ']') (by
            intro h
            obtain ⟨x, hxl, e⟩ := List.mem_map.1 h
            exact (hsl x hxl).1 e)
          simpa using this
        refine ⟨∑ x ∈ l.toFinset.filter (· ∉ fixed d), V x, ?_, ?_⟩
        · rw [possibleC, hget]
          simp only [text, List.head?_cons]
          rw [if_neg (by decide), if_neg (by decide), if_pos trivial, hlast]
          have hinv := forUp_inv (lo := (text d).length + 1) (hi := (text d).length + 1 + l.length) (s := 0)
            (body := fun total i => at_ (text (d ++ .set l :: z)) i >>= fun x =>
              if ((text (d ++ .set l :: z)).take (text d).length).contains x = false ∧ find (text (d ++ .set l :: z)) x (text d).length = i then
                possibleC b fuel (text d).length ((text (d ++ .set l :: z)).take (text d).length ++ [x] ++
                  (text (d ++ .set l :: z)).drop ((text d).length + 1 + l.length + 1)) (d.count .any) >>= fun k => .ok (u64 (total + k))
              else .ok total)
            (fun i total => total = u64 (∑ x ∈ (l.take (i - ((text d).length + 1))).toFinset.filter (· ∉ fixed d), V x)) (by omega)
            (by simp [u64]) ?_
          · obtain ⟨s', e1, e2⟩ := hinv
            rw [e1, e2]
            have : (text d).length + 1 + l.length - ((text d).length + 1) = l.length := by omega
            rw [this, List.take_length]
          · intro i total hi1 hi2 htot
            obtain ⟨j, rfl⟩ : ∃ j, i = (text d).length + 1 + j := ⟨i - ((text d).length + 1), by omega⟩
            have hj : j < l.length := by omega
            have hjl : l[j] ∈ l := List.getElem_mem hj
            rw [show (text d).length + 1 + j - ((text d).length + 1) = j by omega] at htot
            rw [show (text d).length + 1 + j + 1 - ((text d).length + 1) = j + 1 by omega]
            have hat : at_ (text (d ++ .set l :: z)) ((text d).length + 1 + j) = .ok (symbol l[j]) := by
              have hlt : (text d).length + 1 + j < (text d ++ '[' :: (l.map symbol ++ ']' :: text z)).length := by simp; omega
              rw [hs0, at_, if_neg (by omega), vget]
              have : (text d ++ '[' :: (l.map symbol ++ ']' :: text z))[(text d).length + 1 + j]? = some (symbol l[j]) := by
                rw [List.getElem?_append_right (by omega), show (text d).length + 1 + j - (text d).length = j + 1 by omega,
                  List.getElem?_cons_succ, List.getElem?_append_left (by simpa using hj)]
                simp [hj]
              rw [this]
            have htake : (text (d ++ .set l :: z)).take (text d).length = text d := by rw [hs0, List.take_left]
            have hdrop : (text (d ++ .set l :: z)).drop ((text d).length + 1 + l.length + 1) = text z := by
              rw [hs0, show text d ++ '[' :: (l.map symbol ++ ']' :: text z) = (text d ++ '[' :: (l.map symbol ++ [']'])) ++ text z by simp,
                show (text d).length + 1 + l.length + 1 = (text d ++ '[' :: (l.map symbol ++ [']'])).length by simp; omega, List.drop_left]
            simp only [hat, Out.ok_bind, htake, hdrop]
            have hcon : (text d).contains (symbol l[j]) = false ↔ l[j] ∉ fixed d := by
              rw [← mem_text_bare hd hfd (hlx _ hjl).1]
              simp
            have hfind : find (text (d ++ .set l :: z)) (symbol l[j]) (text d).length = (text d).length + 1 + j ↔ l[j] ∉ l.take j := by
              have hsplit : '[' :: (l.map symbol ++ ']' :: text z) = ('[' :: (l.take j).map symbol) ++ symbol l[j] :: ((l.drop (j + 1)).map symbol ++ ']' :: text z) := by
                have h0 : l = l.take j ++ l[j] :: l.drop (j + 1) := by rw [← List.drop_eq_getElem_cons hj, List.take_append_drop]
                have h1 : l.map symbol = (l.take j).map symbol ++ symbol l[j] :: (l.drop (j + 1)).map symbol := by
                  conv_lhs => rw [h0]
                  rw [List.map_append, List.map_cons]
                rw [h1, List.append_assoc, List.cons_append, List.cons_append]
              have hlen : ('[' :: (l.take j).map symbol).length = j + 1 := by simp; omega
              rw [hs0, hsplit]
              constructor
              · intro h hmem
                refine find_earlier (a := text d) (u := '[' :: (l.take j).map symbol) (v := symbol l[j] :: ((l.drop (j + 1)).map symbol ++ ']' :: text z)) (c := symbol l[j]) ?_ ?_
                · exact List.mem_cons_of_mem _ (List.mem_map_of_mem hmem)
                · rw [h, hlen]; omega
              · intro h
                rw [find_first, hlen]
                · omega
                · intro hmem
                  rcases List.mem_cons.1 hmem with e | hmem
                  · exact (hsl _ hjl).2 e
                  · obtain ⟨y, hy, e⟩ := List.mem_map.1 hmem
                    have hyl := List.mem_of_mem_take hy
                    rw [symbol_inj (hlx y hyl).1 (hlx _ hjl).1 e] at hy
                    exact h hy
            have htk : l.take (j + 1) = l.take j ++ [l[j]] := by rw [List.take_add_one, List.getElem?_eq_getElem hj]; rfl
            have hset : (l.take (j + 1)).toFinset = insert l[j] (l.take j).toFinset := by
              rw [htk]; ext y; simp only [List.mem_toFinset, List.mem_append, List.mem_singleton, Finset.mem_insert, or_comm]
            by_cases hcond : l[j] ∉ fixed d ∧ l[j] ∉ l.take j
            · rw [if_pos ⟨hcon.2 hcond.1, hfind.2 hcond.2⟩]
              have htx : text d ++ [symbol l[j]] ++ text z = text (d ++ .bell l[j] :: z) := by rw [text_append]; simp [text]
              rw [htx, (hV l[j] ⟨hjl, hcond.1⟩).1, Out.ok_bind]
              refine ⟨_, rfl, ?_⟩
              rw [htot, u64_add, hset, Finset.filter_insert, if_pos hcond.1, Finset.sum_insert (by simp [hcond.2]), Nat.add_comm]
            · rw [if_neg (fun h => hcond ⟨hcon.1 h.1, hfind.1 h.2⟩)]
              refine ⟨_, rfl, ?_⟩
              rw [htot, hset, Finset.filter_insert]
              congr 1
              by_cases h1 : l[j] ∉ fixed d
              · have h2 : l[j] ∈ l.take j := by
                  by_contra h2; exact hcond ⟨h1, h2⟩
                rw [if_pos h1, Finset.insert_eq_self.2 (by simp [h1, h2])]
              · rw [if_neg h1]
        · have hfull : ∀ t : Tok, t ≠ .star → full (d ++ t :: z) = d ++ t :: full z := by
            intro t ht
            unfold full
            have : Tok.star ∈ d ++ t :: z ↔ Tok.star ∈ z := by simp [hds, ht.symm]
            by_cases h : Tok.star ∈ z
            · rw [if_pos (this.2 h), if_pos h]
            · rw [if_neg (fun h' => h (this.1 h')), if_neg h]; simp
          rw [hfull _ (by simp), card_set hds, Finset.sum_mul]
          apply Finset.sum_congr rfl
          intro x hx'
          simp only [Finset.mem_filter, List.mem_toFinset] at hx'
          rw [← (hV x hx').2, hfull _ (by simp)]
      | star =>
        have ho' : ones (d ++ .star :: z) = ones (d ++ z) := by simp [ones]
        rw [ho'] at ho
        have hzx : ∀ x ∈ named z, x < 33 ∧ x < b := fun x h => hx x (by rw [named_append]; simp [named, h])
        have hspz := spells_text fun x h => (hzx x h).1
        have hnext : (text (d ++ .star :: z))[(text d).length + 1]? = (text z).head? := by
          rw [text_append, List.getElem?_append_right (by omega), show (text d).length + 1 - (text d).length = 1 by omega, text,
            List.getElem?_cons_succ, List.head?_eq_getElem?]
        have hhead : (text z).head? = some '*' ↔ z.head? = some .star := by
          cases z with
          | nil => simp [text]
          | cons t z =>
            cases t with
            | bell x =>
              have := (bellChar (bellChar_symbol (hzx x (by simp [named])).1)).2.2.1
              unfold Special at this
              push Not at this
              simp [text, this.2.2.2.1]
            | any => simp [text]
            | set l => simp [text]
            | star => simp [text]
        rw [possibleC, hget]
        simp only [text, List.head?_cons]
        rw [if_neg (by decide), if_neg (by decide), if_neg (by decide), if_pos trivial, hnext]
        by_cases hh : z.head? = some .star
        · rw [if_pos (hhead.2 hh)]
          obtain ⟨z', rfl⟩ : ∃ z', z = .star :: z' := by
            cases z with
            | nil => simp at hh
            | cons t z => simp at hh; exact ⟨z, by rw [hh]⟩
          have htx : (text (d ++ .star :: .star :: z')).take (text d).length ++ (text (d ++ .star :: .star :: z')).drop ((text d).length + 1) =
              text (d ++ .star :: z') := by
            have h0 : text (d ++ .star :: .star :: z') = (text d ++ ['*']) ++ text (.star :: z') := by rw [text_append]; simp [text]
            rw [h0, show (text d).length + 1 = (text d ++ ['*']).length by simp, List.drop_left, List.append_assoc, List.take_left, text_append]
          rw [htx]
          obtain ⟨V, h1, h2⟩ := ih d (.star :: z') (by
            unfold meas at hm ⊢
            simp only [List.map_cons, wt, List.sum_cons, List.mem_cons, true_or, if_true] at hm ⊢
            omega) hd (by
            intro x h
            refine hx x ?_
            simpa [named_append, named] using h) (by simpa [fixed_append, fixed] using hf) hlz haz (by simpa [ones] using ho)
          refine ⟨V, h1, ?_⟩
          rw [← h2, full_star (by simp), full_star (by simp)]
          congr 1
          apply rowsOf_congr
          intro r _
          simp only [matches_append, Matches]
          constructor
          · rintro ⟨a, t, rfl, h1, u, v, rfl, u', v', rfl, h2⟩
            exact ⟨a, _, rfl, h1, u ++ u', v', by simp, h2⟩
          · rintro ⟨a, t, rfl, h1, u, v, rfl, h2⟩
            exact ⟨a, _, rfl, h1, [], u ++ v, by simp, u, v, rfl, h2⟩
        · rw [if_neg (fun h => hh (hhead.1 h))]
          have hn : u32 (b + 4294967296 - countBells (text (d ++ .star :: z))) = b - ones (d ++ z) := by
            rw [hcount, ho', u32, show b + 4294967296 - ones (d ++ z) = b - ones (d ++ z) + 2 ^ 32 by omega, Nat.add_mod_right,
              Nat.mod_eq_of_lt (by omega)]
          have hdrop : (text (d ++ .star :: z)).drop ((text d).length + 1) = text z := by
            have h0 : text (d ++ .star :: z) = (text d ++ ['*']) ++ text z := by rw [text_append]; simp [text]
            rw [h0, show (text d).length + 1 = (text d ++ ['*']).length by simp, List.drop_left]
          have sub : ∀ i, i ≤ b - ones (d ++ z) → (Tok.star ∉ z → i = b - ones (d ++ z)) →
              ∃ V, possibleC b fuel (text d).length (text (d ++ (List.replicate i .any ++ z))) (d.count .any) = .ok (u64 V) ∧
              (rowsOf b (full (d ++ (List.replicate i .any ++ z)))).card = V * (d.count .any).factorial := by
            intro i hi hlast
            have hoi : ones (d ++ (List.replicate i .any ++ z)) = ones (d ++ z) + i := by
              rw [ones_append, ones_append, ones_append, ones_anys]; omega
            refine ih d _ ?_ hd ?_ ?_ (hlz.anys i) (haz.anys i) (by omega)
            · have h1 : (Tok.star ∈ List.replicate i .any ++ z ∨ b ≤ ones (d ++ (List.replicate i .any ++ z))) := by
                by_cases hs : Tok.star ∈ z
                · exact Or.inl (by simp [hs])
                · right; rw [hoi, hlast hs]; omega
              unfold meas at hm ⊢
              rw [if_pos h1]
              simp only [List.map_cons, wt, List.sum_cons, List.mem_cons, true_or, if_true] at hm
              simp only [List.map_append, List.map_replicate, wt, List.sum_append, List.sum_replicate, smul_eq_mul, Nat.mul_one]
              omega
            · intro x h
              refine hx x ?_
              rw [named_append, named_append, named_anys] at h
              rw [named_append]; simpa [named] using h
            · rw [fixed_append, fixed_append, fixed_anys, List.nil_append]
              rw [fixed_append] at hf
              exact hf
          simp only [hn, hdrop, expandStar_text]
          by_cases hs : Tok.star ∈ z
          · rw [if_neg (by rw [(spells_star hspz).2 hs]; simp)]
            obtain ⟨y1, x, y2, hy, hy1⟩ := (ha z (List.suffix_refl _) hs).resolve_left hh
            have hneed : needInter ((text z).takeWhile (· ≠ '*')) false = false := needInter_text (fun x h => (hzx x h).1) hy hy1
            simp only [hneed, Bool.false_eq_true, if_false]
            have sub' : ∀ i, ∃ V, i ≤ b - ones (d ++ z) →
                possibleC b fuel (text d).length (text (d ++ (List.replicate i .any ++ z))) (d.count .any) = .ok (u64 V) ∧
                (rowsOf b (full (d ++ (List.replicate i .any ++ z)))).card = V * (d.count .any).factorial := by
              intro i
              by_cases h : i ≤ b - ones (d ++ z)
              · obtain ⟨V, h'⟩ := sub i h (fun h => absurd hs h); exact ⟨V, fun _ => h'⟩
              · exact ⟨0, fun h' => absurd h' h⟩
            choose V hV using sub'
            refine ⟨∑ i ∈ Finset.range (b - ones (d ++ z) + 1), V i, ?_, ?_⟩
            · obtain ⟨s', e1, e2⟩ := forUp_inv (lo := 0) (hi := b - ones (d ++ z) + 1) (s := 0)
                (body := fun total i => possibleC b fuel (text d).length (text (d ++ (List.replicate i .any ++ z))) (d.count .any) >>= fun k =>
                  .ok (u64 (total + k)))
                (fun i total => total = u64 (∑ j ∈ Finset.range i, V j)) (by omega) (by simp [u64]) (by
                  intro i total _ hi htot
                  rw [(hV i (by omega)).1, Out.ok_bind]
                  refine ⟨_, rfl, ?_⟩
                  rw [htot, u64_add, Finset.sum_range_succ])
              rw [← e2]; exact e1
            · rw [full_star (by simp), card_star hds hy hy1 ho, Finset.sum_mul]
              apply Finset.sum_congr rfl
              intro i hi
              rw [← (hV i (by have := Finset.mem_range.1 hi; omega)).2, full_star (by simp [hs])]
          · rw [if_pos (by rw [← Bool.not_eq_true, spells_star hspz]; exact hs)]
            obtain ⟨V, h1, h2⟩ := sub _ (Nat.le_refl _) (fun _ => rfl)
            refine ⟨V, h1, ?_⟩
            rw [← h2, full_star (by simp), rowsOf_lastStar hds hs ho, rowsOf_full]
            · simp [hds, hs]
            · have h3 := MNode.ones_of_noStar hs
              rw [ones_append, hdo, h3] at ho ⊢
              simp; omega

end Ringing
