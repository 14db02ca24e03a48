import Verif.Spec.RowCalcParse
import Mathlib.Tactic.Ring
import Mathlib.Tactic.Tauto

namespace Ringing
namespace RowCalc

/-- The depth after the tokens. -/
def dep (k : Option Br) (ts : List Tok) : Int := (ts.map (wt k)).sum

/-- No token at depth zero satisfies `p`. -/
def Clear (p : Tok → Bool) : Int → List Tok → Prop
  | _, [] => True
  | d, t :: ts => (wt none t = 0 → d = 0 → p t = false) ∧ Clear p (d + wt none t) ts

/-- The depth stays positive. -/
def Stay (k : Option Br) : Int → List Tok → Prop
  | _, [] => True
  | d, t :: ts => 1 ≤ d + wt k t ∧ Stay k (d + wt k t) ts

@[simp] theorem dep_nil (k : Option Br) : dep k [] = 0 := rfl
@[simp] theorem dep_cons (k : Option Br) (t : Tok) (ts : List Tok) : dep k (t :: ts) = wt k t + dep k ts := by simp [dep]
@[simp] theorem dep_append (k : Option Br) (a b : List Tok) : dep k (a ++ b) = dep k a + dep k b := by simp [dep]

theorem clear_append {p : Tok → Bool} {b : List Tok} : ∀ {a : List Tok} {d : Int},
    Clear p d (a ++ b) ↔ Clear p d a ∧ Clear p (d + dep none a) b
  | [], d => by simp [Clear]
  | t :: a, d => by
    rw [List.cons_append, Clear, Clear, clear_append, dep_cons, ← and_assoc, add_assoc]

theorem stay_append {k : Option Br} {b : List Tok} : ∀ {a : List Tok} {d : Int},
    Stay k d (a ++ b) ↔ Stay k d a ∧ Stay k (d + dep k a) b
  | [], d => by simp [Stay]
  | t :: a, d => by
    rw [List.cons_append, Stay, Stay, stay_append, dep_cons, ← and_assoc, add_assoc]

theorem clear_of_stay {p : Tok → Bool} : ∀ {ts : List Tok} {d : Int}, 1 ≤ d → Stay none d ts → Clear p d ts
  | [], _, _, _ => trivial
  | _ :: _, _, hd, h => ⟨fun _ h0 => by omega, clear_of_stay h.1 h.2⟩

theorem clear_rev {p : Tok → Bool} : ∀ {ts : List Tok} {d : Int}, Clear p d ts → Clear p (-(d + dep none ts)) ts.reverse
  | [], _, _ => trivial
  | t :: ts, d, h => by
    rw [List.reverse_cons, clear_append]
    have ih := clear_rev h.2
    have hd : dep none ts.reverse = dep none ts := by unfold dep; rw [List.map_reverse, List.sum_reverse]
    refine ⟨?_, ?_⟩
    · rw [dep_cons, ← add_assoc]; exact ih
    · rw [hd, dep_cons]
      exact ⟨fun h0 h1 => h.1 h0 (by omega), trivial⟩

theorem clear_mono {p q : Tok → Bool} (hpq : ∀ t, q t = true → p t = true) : ∀ {ts : List Tok} {d : Int}, Clear p d ts → Clear q d ts
  | [], _, _ => trivial
  | t :: ts, d, h => by
    refine ⟨fun h0 h1 => ?_, clear_mono hpq h.2⟩
    have := h.1 h0 h1
    cases hq : q t
    · rfl
    · rw [hpq t hq] at this; cases this

theorem find_clear {p : Tok → Bool} {b : List Tok} : ∀ {a : List Tok} {d : Int}, Clear p d a →
    findC p d (a ++ b) = findC p (d + dep none a) b >>= fun r => .ok (r.map fun x => (a ++ x.1, x.2))
  | [], d, _ => by
    simp only [List.nil_append, dep_nil, add_zero]
    cases findC p d b with
    | ok r => cases r <;> rfl
    | throw e => rfl
    | ub => rfl
    | timeout => rfl
  | t :: a, d, h => by
    rw [List.cons_append, findC, if_neg (by rintro ⟨h0, h1, h2⟩; rw [h.1 h0 h1] at h2; cases h2), find_clear h.2, dep_cons, add_assoc]
    cases findC p (d + (wt none t + dep none a)) b with
    | ok r => cases r <;> rfl
    | throw e => rfl
    | ub => rfl
    | timeout => rfl

theorem find_none {p : Tok → Bool} {a : List Tok} (h : Clear p 0 a) (h0 : dep none a = 0) : findC p 0 a = .ok none := by
  have := find_clear (b := []) h
  rw [List.append_nil] at this
  rw [this, h0]; rfl

theorem find_some {p : Tok → Bool} {a b : List Tok} {t : Tok} (h : Clear p 0 a) (h0 : dep none a = 0) (ht : wt none t = 0) (hp : p t = true) :
    findC p 0 (a ++ t :: b) = .ok (some (a, t, b)) := by
  rw [find_clear h, h0, findC, if_pos ⟨ht, by simp, hp⟩]
  simp

theorem dep_reverse (k : Option Br) (ts : List Tok) : dep k ts.reverse = dep k ts := by
  unfold dep; rw [List.map_reverse, List.sum_reverse]

theorem findLast_none {p : Tok → Bool} {a : List Tok} (h : Clear p 0 a) (h0 : dep none a = 0) : findLastC p a = .ok none := by
  have h1 := clear_rev h
  rw [h0, add_zero, neg_zero] at h1
  rw [findLastC, find_none h1 (by rw [dep_reverse, h0])]; rfl

theorem findLast_some {p : Tok → Bool} {a b : List Tok} {t : Tok} (h : Clear p 0 b) (h0 : dep none b = 0) (ht : wt none t = 0) (hp : p t = true) :
    findLastC p (a ++ t :: b) = .ok (some (a, t, b)) := by
  have h1 := clear_rev h
  rw [h0, add_zero, neg_zero] at h1
  rw [findLastC, List.reverse_append, List.reverse_cons, List.append_assoc, List.singleton_append,
    find_some h1 (by rw [dep_reverse, h0]) ht hp]
  simp

theorem scan_append {k : Br} {x r : List Tok} : ∀ {ts : List Tok} {d : Int}, scanC k d ts = some r → scanC k d (ts ++ x) = some (r ++ x)
  | [], _, h => by cases h
  | t :: ts, d, h => by
    rw [List.cons_append, scanC]
    rw [scanC] at h
    split at h
    · rename_i h0
      rw [if_pos h0]; cases h; rfl
    · rename_i h0
      rw [if_neg h0]; exact scan_append h

theorem scan_stay {k : Br} {x : List Tok} : ∀ {ts : List Tok} {d : Int}, Stay (some k) d ts → scanC k d (ts ++ x) = scanC k (d + dep (some k) ts) x
  | [], d, _ => by simp
  | t :: ts, d, h => by
    rw [List.cons_append, scanC, if_neg (by have := h.1; omega), scan_stay h.2, dep_cons, add_assoc]

/-- What an item may not have at depth zero. -/
def forbid : Item → Tok → Bool
  | .list _, _ => false
  | .diff _, t => t == .comma
  | .mult _, t => t == .comma || t == .minus
  | .power _, t | .expo _, t => t == .comma || t == .minus || isOp t
  | .prim _, t => t == .comma || t == .minus || isOp t || t == .power || t == .plus

def plusFree : Item → Bool
  | .expo _ => false
  | _ => true

/-- The brackets of an item. -/
structure Shape (i : Item) (ts : List Tok) : Prop where
  ne : ts ≠ []
  zero : ∀ k, dep k ts = 0
  stay : ∀ k d, 1 ≤ d → Stay k d ts
  clear : Clear (forbid i) 0 ts
  close : ∀ k rest, ts = .opn k :: rest → ∃ r, scanC k 1 rest = some r ∧ r.length + 1 < rest.length
  head : plusFree i = true → ts.head? ≠ some .plus

theorem Shape.up {i j : Item} {ts : List Tok} (h : Shape i ts) (hf : ∀ t, forbid j t = true → forbid i t = true) (hp : plusFree j = true → plusFree i = true) : Shape j ts :=
  ⟨h.ne, h.zero, h.stay, clear_mono hf h.clear, h.close, fun h' => h.head (hp h')⟩

theorem Shape.join {i j l : Item} {ta tb : List Tok} {t : Tok} (ha : Shape i ta) (hb : Shape j tb) (ht : ∀ k, wt k t = 0)
    (hf : forbid l t = false) (h1 : ∀ t, forbid l t = true → forbid i t = true) (h2 : ∀ t, forbid l t = true → forbid j t = true)
    (hp : plusFree i = true) : Shape l (ta ++ t :: tb) where
  ne := by simp
  zero := fun k => by rw [dep_append, dep_cons, ha.zero, hb.zero, ht]; rfl
  stay := fun k d hd => by
    rw [stay_append]
    refine ⟨ha.stay k d hd, ?_⟩
    rw [ha.zero, add_zero]
    refine ⟨?_, ?_⟩
    · rw [ht]; omega
    · rw [ht]; exact hb.stay k _ (by omega)
  clear := by
    rw [clear_append]
    refine ⟨clear_mono h1 ha.clear, ?_⟩
    rw [ha.zero, add_zero]
    refine ⟨fun _ _ => hf, ?_⟩
    rw [ht]; exact clear_mono h2 hb.clear
  close := fun k rest h => by
    obtain ⟨x, ta', rfl⟩ := List.exists_cons_of_ne_nil ha.ne
    rw [List.cons_append, List.cons.injEq] at h
    obtain ⟨rfl, rfl⟩ := h
    obtain ⟨r, h1, h2⟩ := ha.close k ta' rfl
    exact ⟨r ++ t :: tb, scan_append h1, by simp only [List.length_append, List.length_cons]; omega⟩
  head := fun _ => by
    obtain ⟨x, ta', rfl⟩ := List.exists_cons_of_ne_nil ha.ne
    exact ha.head hp

theorem Shape.single {i : Item} {t : Tok} (ht : ∀ k, wt k t = 0) (hf : forbid i t = false) (hp : t ≠ .plus) : Shape i [t] where
  ne := by simp
  zero := fun k => by simp [ht]
  stay := fun k d hd => ⟨by rw [ht]; omega, trivial⟩
  clear := ⟨fun _ _ => hf, trivial⟩
  close := fun k rest h => by
    rw [List.cons.injEq] at h
    have := ht (some k)
    rw [h.1] at this
    simp [wt] at this
  head := fun _ => by simpa using hp

theorem wt_opn_le (k : Option Br) (b : Br) : 0 ≤ wt k (.opn b) ∧ wt k (.cls b) = - wt k (.opn b) := by
  cases k with
  | none => simp [wt]
  | some k => unfold wt; by_cases h : b = k <;> simp [h]

theorem Shape.bracket {i l : Item} {ts : List Tok} (b : Br) (h : Shape i ts) : Shape l (.opn b :: (ts ++ [.cls b])) where
  ne := by simp
  zero := fun k => by
    rw [dep_cons, dep_append, h.zero, dep_cons, dep_nil, (wt_opn_le k b).2]; omega
  stay := fun k d hd => by
    have h0 := wt_opn_le k b
    refine ⟨by omega, ?_⟩
    rw [stay_append]
    refine ⟨h.stay k _ (by omega), ?_⟩
    rw [h.zero]
    exact ⟨by rw [h0.2]; omega, trivial⟩
  clear := by
    refine ⟨fun h0 => by simp [wt] at h0, ?_⟩
    rw [clear_append]
    refine ⟨clear_of_stay (by simp [wt]) (h.stay none _ (by simp [wt])), ?_⟩
    exact ⟨fun h0 => by simp [wt] at h0, trivial⟩
  close := fun k rest hr => by
    rw [List.cons.injEq] at hr
    obtain ⟨hk, rfl⟩ := hr
    cases hk
    refine ⟨[], ?_, ?_⟩
    · rw [scan_stay (h.stay _ 1 le_rfl), h.zero]
      simp [scanC, wt]
    · have := List.length_pos_iff.2 h.ne
      simp only [List.length_append, List.length_cons, List.length_nil]; omega
  head := fun _ => by simp

theorem shape {mk : List Char → Option Row} {i : Item} {ts : List Tok} (h : Spells mk i ts) : Shape i ts := by
  induction h with
  | diffUp _ ih => exact ih.up (by intro t; simp only [forbid, Bool.or_eq_true]; tauto) (by intro; rfl)
  | diff _ _ ha hb =>
    exact ha.join hb (fun k => by cases k <;> rfl) (by rfl) (by intro t; exact id) (by intro t; simp only [forbid, Bool.or_eq_true]; tauto) rfl
  | multUp _ ih => exact ih.up (by intro t; simp only [forbid, Bool.or_eq_true]; tauto) (by intro; rfl)
  | mult o _ _ ha hb =>
    exact ha.join hb (fun k => by cases k <;> rfl) (by rfl) (by intro t; exact id) (by intro t; simp only [forbid, Bool.or_eq_true]; tauto) rfl
  | powerUp _ ih => exact ih.up (by intro t; simp only [forbid, Bool.or_eq_true]; tauto) (by intro; rfl)
  | power _ _ ha hb =>
    exact ha.join hb (fun k => by cases k <;> rfl) (by rfl) (by intro t; simp only [forbid, Bool.or_eq_true]; tauto) (by intro t; exact id) rfl
  | int _ => exact .single (fun k => by cases k <;> rfl) (by rfl) (by simp)
  | plus =>
    refine ⟨by simp, fun k => by cases k <;> rfl, fun k d hd => ?_, ⟨fun _ _ => by rfl, fun _ _ => by rfl, trivial⟩, fun k rest h => by simp at h, fun h => by simp [plusFree] at h⟩
    have h1 : wt k .plus = 0 := by cases k <;> rfl
    have h2 : ∀ s, wt k (.num s) = 0 := fun s => by cases k <;> rfl
    exact ⟨by rw [h1]; omega, by rw [h1, h2]; omega, trivial⟩
  | expo _ _ ih => exact ih.up (by intro t; exact id) (by simp [plusFree])
  | num _ => exact .single (fun k => by cases k <;> rfl) (by rfl) (by simp)
  | lit _ => exact .single (fun k => by cases k <;> rfl) (by rfl) (by simp)
  | exec => exact .single (fun k => by cases k <;> rfl) (by rfl) (by simp)
  | read => exact .single (fun k => by cases k <;> rfl) (by rfl) (by simp)
  | paren _ ih => exact ih.bracket .paren
  | set _ ih => exact ih.bracket .brace
  | group _ ih => exact ih.bracket .angle
  | one _ ih => exact ih.up (by intro t; simp [forbid]) (by intro; rfl)
  | more _ _ ha hb => exact ha.join hb (fun k => by cases k <;> rfl) (by rfl) (by intro t; simp [forbid]) (by intro t; exact id) rfl

end RowCalc
end Ringing
