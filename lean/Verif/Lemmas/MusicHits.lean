import Verif.Lemmas.Music
import Mathlib.Data.List.Basic
/-! The matches recorded for a pattern are readings of the row. -/
namespace Spec

theorem readings_short {p : List Tok} : ∀ {r : List Nat}, r.length < ones p → readings p r = [] := by
  induction p with
  | nil => intro r h; simp [ones] at h
  | cons t p ih =>
    intro r h
    cases t with
    | bell b =>
      cases r with
      | nil => rfl
      | cons x r =>
        rw [readings]; split
        · exact ih (by simp [ones] at h ⊢; omega)
        · rfl
    | any =>
      cases r with
      | nil => rfl
      | cons x r => rw [readings, ih (by simp [ones] at h ⊢; omega)]; rfl
    | set l =>
      cases r with
      | nil => rfl
      | cons x r =>
        rw [readings, List.flatMap_eq_nil_iff]
        intro b _
        split
        · exact ih (by simp [ones] at h ⊢; omega)
        · rfl
    | star =>
      have h' : r.length < ones p := by simpa [ones] using h
      rw [readings]
      induction r with
      | nil => exact ih h'
      | cons x r ih2 =>
        rw [starReadings, ih h', ih2 (by simp at h; omega) (by simp at h'; omega)]; rfl

theorem readings_long {p : List Tok} (hp : Tok.star ∉ p) : ∀ {r : List Nat}, r.length ≠ p.length → readings p r = [] := by
  induction p with
  | nil => intro r h; rw [readings, if_neg (by rintro rfl; exact h rfl)]
  | cons t p ih =>
    intro r h
    have hp' : Tok.star ∉ p := fun h => hp (List.mem_cons_of_mem _ h)
    cases r with
    | nil => cases t <;> first | rfl | exact absurd (List.mem_cons_self) hp
    | cons x r =>
      have := @ih hp' r (by simpa using h)
      cases t with
      | bell b => rw [readings, this]; split <;> rfl
      | any => rw [readings, this]; rfl
      | set l => rw [readings, List.flatMap_eq_nil_iff]; intro b _; rw [this]; split <;> rfl
      | star => exact absurd (List.mem_cons_self) hp

theorem readings_star (r : List Nat) : readings [.star] r = [r] := by
  rw [readings]
  induction r with
  | nil => rfl
  | cons x r ih => rw [starReadings, ih]; rfl

theorem readings_append_star {p : List Tok} (hp : Tok.star ∉ p) : ∀ {r : List Nat}, r.length = p.length →
    readings (p ++ [.star]) r = readings p r := by
  induction p with
  | nil => intro r h; rw [List.length_eq_zero_iff.1 h]; rfl
  | cons t p ih =>
    intro r h
    have hp' : Tok.star ∉ p := fun h => hp (List.mem_cons_of_mem _ h)
    cases r with
    | nil => simp at h
    | cons x r =>
      have := @ih hp' r (by simpa using h)
      cases t with
      | bell b => rw [List.cons_append, readings, readings, this]
      | any => rw [List.cons_append, readings, readings, this]
      | set l => rw [List.cons_append, readings, readings, this]
      | star => exact absurd (List.mem_cons_self) hp

theorem star_short {f : List Nat → List (List Nat)} : ∀ {t : List Nat}, (∀ t', t'.length < t.length → f t' = []) →
    starReadings f t = f t
  | [], _ => rfl
  | x :: t, h => by
    rw [starReadings, star_short (t := t) (fun t' h' => h t' (by simp; omega)), h t (by simp)]; simp

theorem sub_star {f g : List Nat → List (List Nat)} (h : ∀ t, (f t).Sublist (g t)) : ∀ t, (starReadings f t).Sublist (starReadings g t)
  | [] => h _
  | x :: t => by rw [starReadings, starReadings]; exact (h _).append ((sub_star h t).map _)

theorem sub_star_self (f : List Nat → List (List Nat)) : ∀ t, (f t).Sublist (starReadings f t)
  | [] => List.Sublist.refl _
  | x :: t => by rw [starReadings]; exact List.sublist_append_left _ _

/-- What is read by the pattern with its last star not empty is read by the pattern. -/
theorem lastNonempty_sub (p : List Tok) : ∀ r, (readings (lastNonempty p) r).Sublist (readings p r) := by
  induction p with
  | nil => intro r; exact List.Sublist.refl _
  | cons t p ih =>
    intro r
    cases t with
    | bell b =>
      rw [lastNonempty]; cases r with
      | nil => exact List.Sublist.refl _
      | cons x r => rw [readings, readings]; split; exact ih r; exact List.Sublist.refl _
      all_goals simp
    | any =>
      rw [lastNonempty]; cases r with
      | nil => exact List.Sublist.refl _
      | cons x r => rw [readings, readings]; exact (ih r).map _
      all_goals simp
    | set l =>
      rw [lastNonempty]; cases r with
      | nil => exact List.Sublist.refl _
      | cons x r =>
        rw [readings, readings]
        induction l with
        | nil => exact List.Sublist.refl _
        | cons b l ih2 =>
          rw [List.flatMap_cons, List.flatMap_cons]
          refine List.Sublist.append ?_ ih2
          split; exact ih r; exact List.Sublist.refl _
      all_goals simp
    | star =>
      rw [lastNonempty]
      split
      · exact sub_star ih r
      · split
        · rename_i h; rw [h]
        · cases r with
          | nil => exact List.nil_sublist _
          | cons x r => rw [readings, readings, readings, starReadings]; exact List.sublist_append_right _ _

end Spec

namespace Ringing.MNode
open Spec
variable {b : Nat} {g : Nat → Nat} {r : Row}

theorem hits_gt {tl : Nat → List Nat} {fuel pos : Nat} {p : List Tok} (hp : p ≠ []) (h : b < pos) (w : List Nat) :
    hits b g tl fuel p pos w = [] := by
  cases fuel with
  | zero => rfl
  | succ fuel =>
    rw [hits]
    cases p with
    | nil => exact absurd rfl hp
    | cons t p => cases t <;> rw [hitGo, if_pos h]

theorem hits_noStar (hb : r.length = b) (hg : ∀ i (h : i < r.length), g i = r[i]) {p : List Tok} (hp : Tok.star ∉ p) :
    ∀ {fuel pos : Nat} (w : List Nat), pos + p.length ≤ b → b + 1 < fuel + pos →
    hits b g (fun i => r.drop i) fuel p pos w = (readings (p ++ [.star]) (r.drop pos)).map (w ++ ·) := by
  induction p with
  | nil =>
    intro fuel pos w h hf
    obtain ⟨k, rfl⟩ : ∃ k, fuel = k + 1 := ⟨fuel - 1, by simp at h; omega⟩
    rw [hits, hitGo, List.nil_append, readings_star]; rfl
  | cons t p ih =>
    intro fuel pos w h hf
    have hp' : Tok.star ∉ p := fun h => hp (List.mem_cons_of_mem _ h)
    simp only [List.length_cons] at h
    obtain ⟨k, rfl⟩ : ∃ k, fuel = k + 1 := ⟨fuel - 1, by omega⟩
    have hlt : pos < r.length := by omega
    rw [hits, List.cons_append, List.drop_eq_getElem_cons hlt]
    have IH := fun w => @ih hp' k (pos + 1) w (by omega) (by omega)
    cases t with
    | bell x =>
      rw [hitGo, if_neg (by omega), readings, hg pos hlt]
      split
      · exact IH w
      · rfl
    | any =>
      rw [hitGo, if_neg (by omega), readings, IH, hg pos hlt, List.map_map]
      congr 1; funext v; simp
    | set l =>
      rw [hitGo, if_neg (by omega), readings, List.map_flatMap, hg pos hlt]
      apply List.flatMap_congr
      intro x _
      split
      · exact IH w
      · rfl
    | star => exact absurd (List.mem_cons_self) hp

theorem Window.tail {t : Tok} {p : List Tok} (h : Window b (t :: p)) : Window b p :=
  fun z hz => h z (hz.trans (List.suffix_cons _ _))

theorem map_cons_append (w : List Nat) (x : Nat) (l : List (List Nat)) :
    l.map (w ++ [x] ++ ·) = (l.map (x :: ·)).map (w ++ ·) := by
  rw [List.map_map]; congr 1; funext v; simp

/-- The last star: at least one bell, then the rest. -/
theorem hits_lastStar (hb : r.length = b) (hg : ∀ i (h : i < r.length), g i = r[i]) {p : List Tok} (hp : Tok.star ∉ p) (hne : p ≠ []) :
    ∀ {fuel pos : Nat} (w : List Nat), pos ≤ b → b + 1 < fuel + pos →
    hits b g (fun i => r.drop i) fuel (.star :: p) pos w = (readings (.any :: .star :: p) (r.drop pos)).map (w ++ ·) := by
  intro fuel
  induction fuel with
  | zero => intro pos w h hf; omega
  | succ k ih =>
    intro pos w h hf
    rw [hits, hitGo, if_neg (by omega), if_neg hne, if_pos hp]
    rcases Nat.lt_or_ge pos b with hlt | hge
    · rw [List.drop_eq_getElem_cons (by omega : pos < r.length), readings, ← map_cons_append, hg pos (by omega)]
      split
      · rename_i e
        rw [hits_noStar hb hg hp _ (by omega) (by omega), readings_append_star hp (by simp; omega), readings,
          star_short]
        intro t' ht'
        refine readings_long hp ?_
        simp at ht'; omega
      · rename_i e
        rw [ih _ (by omega) (by omega)]
        congr 1
        have h0 : readings p (r.drop (pos + 1)) = [] := readings_long hp (by simp; omega)
        cases hc : r.drop (pos + 1) with
        | nil => rw [hc] at h0; simp only [readings, starReadings, h0]
        | cons y t => rw [hc] at h0; simp only [readings, starReadings, h0, List.nil_append]
    · rw [List.drop_eq_nil_of_le (by omega), readings]
      have : pos = b := by omega
      subst this
      rw [if_neg (by omega), hits_gt (by simp) (by omega)]; rfl

/-- All the readings are found if the window is wide enough. -/
theorem hits_exact (hb : r.length = b) (hg : ∀ i (h : i < r.length), g i = r[i]) :
    ∀ {fuel : Nat} {p : List Tok} {pos : Nat} (w : List Nat), Tok.star ∈ p → Window b p → pos ≤ b → b + 1 < fuel + pos →
    hits b g (fun i => r.drop i) fuel p pos w = (readings (lastNonempty p) (r.drop pos)).map (w ++ ·) := by
  intro fuel
  induction fuel with
  | zero => intro p pos w _ _ h hf; omega
  | succ k ih =>
    intro p
    induction p with
    | nil => intro pos w hp; simp at hp
    | cons t p ihp =>
      intro pos w hp hw h hf
      by_cases ht : t = .star
      · subst ht
        by_cases hs : Tok.star ∈ p
        · rw [lastNonempty, if_pos hs]
          have hne : p ≠ [] := List.ne_nil_of_mem hs
          have := hw p (List.suffix_refl _) hs
          rw [hits, hitGo, if_neg (by omega), if_neg hne, if_neg (fun h' : Tok.star ∉ p => h' hs)]
          have e1 := ihp w hs (Window.tail hw) h hf
          rw [hits] at e1
          rw [e1, readings]
          rcases Nat.lt_or_ge pos b with hlt | hge
          · rw [List.drop_eq_getElem_cons (by omega : pos < r.length), starReadings, List.map_append,
              ← map_cons_append, hg pos (by omega)]
            congr 1
            split
            · rw [ih _ hp hw (by omega) (by omega), lastNonempty, if_pos hs, readings]
            · rw [ih _ hs (Window.tail hw) (by omega) (by omega), star_short]
              intro t' ht'
              refine readings_short ?_
              simp at ht'; omega
          · rw [List.drop_eq_nil_of_le (by omega), starReadings]
            split <;> rw [hits_gt (by simp [hne]) (by omega), List.append_nil]
        · rw [lastNonempty, if_neg hs]
          by_cases hne : p = []
          · subst hne
            rw [if_pos rfl, readings_star, hits, hitGo, if_neg (by omega), if_pos rfl]; rfl
          · rw [if_neg hne]
            exact hits_lastStar hb hg hs hne w h hf
      · have hs : Tok.star ∈ p := by
          rcases List.mem_cons.1 hp with e | e
          · exact absurd e.symm ht
          · exact e
        have hl : lastNonempty (t :: p) = t :: lastNonempty p := by
          cases t <;> first | rfl | exact absurd rfl ht
        rw [hl, hits]
        rcases Nat.lt_or_ge pos b with hlt | hge
        · rw [List.drop_eq_getElem_cons (by omega : pos < r.length)]
          have IH := fun w => @ih p (pos + 1) w hs (Window.tail hw) (by omega) (by omega)
          cases t with
          | bell x =>
            rw [hitGo, if_neg (by omega), readings, hg pos (by omega)]
            split
            · exact IH w
            · rfl
          | any => rw [hitGo, if_neg (by omega), readings, IH, hg pos (by omega), map_cons_append]
          | set l =>
            rw [hitGo, if_neg (by omega), readings, List.map_flatMap, hg pos (by omega)]
            apply List.flatMap_congr
            intro x _
            split
            · exact IH w
            · rfl
          | star => exact absurd rfl ht
        · have hn := fun w => @hits_gt b g (fun i => r.drop i) k (pos + 1) p (List.ne_nil_of_mem hs) (by omega) w
          rw [List.drop_eq_nil_of_le (by omega)]
          cases t with
          | bell x => rw [hitGo, if_neg (by omega), hn]; simp [readings]
          | any => rw [hitGo, if_neg (by omega), hn]; simp [readings]
          | set l => rw [hitGo, if_neg (by omega), hn]; simp [readings]
          | star => exact absurd rfl ht

/-- All that is found are readings. -/
theorem hits_sound (hb : r.length = b) (hg : ∀ i (h : i < r.length), g i = r[i]) :
    ∀ {fuel : Nat} {p : List Tok} {pos : Nat} (w : List Nat), Tok.star ∈ p → pos ≤ b → b + 1 < fuel + pos →
    (hits b g (fun i => r.drop i) fuel p pos w).Sublist ((readings (lastNonempty p) (r.drop pos)).map (w ++ ·)) := by
  intro fuel
  induction fuel with
  | zero => intro p pos w _ h hf; omega
  | succ k ih =>
    intro p
    induction p with
    | nil => intro pos w hp; simp at hp
    | cons t p ihp =>
      intro pos w hp h hf
      by_cases ht : t = .star
      · subst ht
        by_cases hs : Tok.star ∈ p
        · rw [lastNonempty, if_pos hs]
          have hne : p ≠ [] := List.ne_nil_of_mem hs
          rw [hits, hitGo, if_neg (by omega), if_neg hne, if_neg (fun h' : Tok.star ∉ p => h' hs)]
          have e1 := ihp w hs h hf
          rw [hits] at e1
          rw [readings]
          rcases Nat.lt_or_ge pos b with hlt | hge
          · rw [List.drop_eq_getElem_cons (by omega : pos < r.length)] at e1 ⊢
            rw [starReadings, List.map_append, ← map_cons_append, hg pos (by omega)]
            refine e1.append ?_
            split
            · have := @ih (.star :: p) (pos + 1) (w ++ [r[pos]]) hp (by omega) (by omega)
              rwa [lastNonempty, if_pos hs, readings] at this
            · exact (ih _ hs (by omega) (by omega)).trans ((sub_star_self _ _).map _)
          · rw [List.drop_eq_nil_of_le (by omega)] at e1 ⊢
            rw [starReadings]
            split <;> rw [hits_gt (by simp [hne]) (by omega), List.append_nil] <;> exact e1
        · rw [lastNonempty, if_neg hs]
          by_cases hne : p = []
          · subst hne
            rw [if_pos rfl, readings_star, hits, hitGo, if_neg (by omega), if_pos rfl]
            exact List.Sublist.refl _
          · rw [if_neg hne, hits_lastStar hb hg hs hne w h hf]
      · have hs : Tok.star ∈ p := by
          rcases List.mem_cons.1 hp with e | e
          · exact absurd e.symm ht
          · exact e
        have hl : lastNonempty (t :: p) = t :: lastNonempty p := by
          cases t <;> first | rfl | exact absurd rfl ht
        rw [hl, hits]
        rcases Nat.lt_or_ge pos b with hlt | hge
        · rw [List.drop_eq_getElem_cons (by omega : pos < r.length)]
          have IH := fun w => @ih p (pos + 1) w hs (by omega) (by omega)
          cases t with
          | bell x =>
            rw [hitGo, if_neg (by omega), readings, hg pos (by omega)]
            split
            · exact IH w
            · exact List.nil_sublist _
          | any => rw [hitGo, if_neg (by omega), readings, ← map_cons_append, hg pos (by omega)]; exact IH _
          | set l =>
            rw [hitGo, if_neg (by omega), readings, List.map_flatMap, hg pos (by omega)]
            induction l with
            | nil => exact List.Sublist.refl _
            | cons x l ih2 =>
              rw [List.flatMap_cons, List.flatMap_cons]
              refine List.Sublist.append ?_ (ih2 (by simp [hs]) (by simp) rfl)
              split
              · exact IH w
              · exact List.nil_sublist _
          | star => exact absurd rfl ht
        · have hn := fun w => @hits_gt b g (fun i => r.drop i) k (pos + 1) p (List.ne_nil_of_mem hs) (by omega) w
          cases t with
          | bell x => rw [hitGo, if_neg (by omega), hn]; simp
          | any => rw [hitGo, if_neg (by omega), hn]; simp
          | set l => rw [hitGo, if_neg (by omega), hn, List.flatMap_eq_nil_iff.2 (by simp)]; exact List.nil_sublist _
          | star => exact absurd rfl ht

end Ringing.MNode
