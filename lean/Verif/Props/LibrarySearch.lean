import Verif.Props.Library
import Verif.Props.MethodName2

/-! C63: searching in a library. -/
namespace Ringing.Lib
open Spec

variable {σ ε α : Type}

/-- Reading from an entry object and a library gives these entries one after another. -/
inductive Yields (L : Library σ ε) : ε → σ → List View → ε → σ → Prop
  | nil {e : ε} {s : σ} : Yields L e s [] e s
  | cons {e e1 e2 : ε} {s s1 s2 : σ} {vs : List View} : L.read e s = .ok (true, e1, s1) → Yields L e1 s1 vs e2 s2 →
      Yields L e s (L.view e1 :: vs) e2 s2

/-- The first entries of the library from `begin()` on. -/
def Begins (L : Library σ ε) (s : σ) (vs : List View) : Prop := ∃ e' s', Yields L (L.fresh (L.start s)) (L.start s) vs e' s'

/-- The entries of the library from `begin()` to `end()`. -/
def Exactly (L : Library σ ε) (s : σ) (vs : List View) : Prop :=
  ∃ e' s' e'' s'', Yields L (L.fresh (L.start s)) (L.start s) vs e' s' ∧ L.read e' s' = .ok (false, e'', s'')

theorem yields_append {L : Library σ ε} {e e1 e2 : ε} {s s1 s2 : σ} {a b : List View} (h : Yields L e s a e1 s1) (h' : Yields L e1 s1 b e2 s2) :
    Yields L e s (a ++ b) e2 s2 := by
  induction h with
  | nil => exact h'
  | cons h1 _ ih => exact .cons h1 (ih h')

theorem yields_split {L : Library σ ε} {e e2 : ε} {s s2 : σ} {a b : List View} (h : Yields L e s (a ++ b) e2 s2) :
    ∃ e1 s1, Yields L e s a e1 s1 ∧ Yields L e1 s1 b e2 s2 := by
  induction a generalizing e s with
  | nil => exact ⟨e, s, .nil, h⟩
  | cons x a ih =>
    cases h with
    | cons h1 h2 =>
      obtain ⟨e1, s1, h3, h4⟩ := ih h2
      exact ⟨e1, s1, .cons h1 h3, h4⟩

theorem Exactly.begins {L : Library σ ε} {s : σ} {a b : List View} (h : Exactly L s (a ++ b)) : Begins L s a := by
  obtain ⟨e', s', _, _, h, -⟩ := h
  obtain ⟨e1, s1, h1, -⟩ := yields_split h
  exact ⟨e1, s1, h1⟩

theorem listLoop_iff {L : Library σ ε} {e : ε} {s : σ} {vs : List View} {s' : σ} :
    (∃ n, listLoop L n e s = .ok (vs, s')) ↔ ∃ e1 s1 e2, Yields L e s vs e1 s1 ∧ L.read e1 s1 = .ok (false, e2, s') := by
  constructor
  · rintro ⟨n, h⟩
    induction n generalizing e s vs with
    | zero => cases h
    | succ n ih =>
      rw [listLoop] at h
      cases hr : L.read e s with
      | throw _ => rw [hr] at h; cases h
      | ub => rw [hr] at h; cases h
      | timeout => rw [hr] at h; cases h
      | ok q =>
        obtain ⟨b, e1, s1⟩ := q
        rw [hr, Out.ok_bind] at h
        cases b with
        | false =>
          simp only [Bool.false_eq_true, if_false] at h
          injection h with h
          injection h with h1 h2
          subst h1 h2
          exact ⟨e, s, e1, .nil, hr⟩
        | true =>
          simp only [if_true] at h
          cases hk : listLoop L n e1 s1 with
          | throw _ => rw [hk] at h; cases h
          | ub => rw [hk] at h; cases h
          | timeout => rw [hk] at h; cases h
          | ok w =>
            rw [hk, Out.ok_bind] at h
            injection h with h
            injection h with h1 h2
            subst h1 h2
            obtain ⟨e2, s2, e3, c1, c2⟩ := ih hk
            exact ⟨e2, s2, e3, .cons hr c1, c2⟩
  · rintro ⟨e1, s1, e2, h1, h2⟩
    induction h1 with
    | nil =>
      refine ⟨1, ?_⟩
      rw [listLoop, h2]; rfl
    | cons h3 _ ih =>
      obtain ⟨n, ih⟩ := ih h2
      refine ⟨n + 1, ?_⟩
      rw [listLoop, h3, Out.ok_bind]
      simp only [if_true]
      rw [ih]; rfl

/-- C63: copying a library gives its entries. -/
theorem C63_list {L : Library σ ε} {s : σ} {vs : List View} : (∃ n s', list L n s = .ok (vs, s')) ↔ Exactly L s vs := by
  unfold list Exactly
  constructor
  · rintro ⟨n, s', h⟩
    obtain ⟨e1, s1, e2, h1, h2⟩ := listLoop_iff.1 ⟨n, h⟩
    exact ⟨e1, s1, e2, s', h1, h2⟩
  · rintro ⟨e1, s1, e2, s', h1, h2⟩
    obtain ⟨n, h⟩ := listLoop_iff.2 ⟨e1, s1, e2, h1, h2⟩
    exact ⟨n, s', h⟩

theorem search_found {L : Library σ ε} {f : View → Out (Option α)} {a : List View} {v : View} {e e' : ε} {s s' : σ}
    (h : Yields L e s (a ++ [v]) e' s') (ha : ∀ x ∈ a, f x = .ok none) {n : Nat} (hn : a.length < n) :
    searchLoop L f n e s = f v >>= fun o => match o with
      | some r => .ok (some r, s')
      | none => searchLoop L f (n - a.length - 1) e' s' := by
  induction a generalizing e s n with
  | nil =>
    obtain ⟨k, rfl⟩ : ∃ k, n = k + 1 := ⟨n - 1, by simp at hn; omega⟩
    cases h with
    | cons h1 h2 =>
      cases h2
      rw [searchLoop, h1, Out.ok_bind]
      simp only [if_true]
      rfl
  | cons x a ih =>
    obtain ⟨k, rfl⟩ : ∃ k, n = k + 1 := ⟨n - 1, by simp at hn; omega⟩
    cases h with
    | cons h1 h2 =>
      rw [searchLoop, h1, Out.ok_bind]
      simp only [if_true]
      rw [ha _ (by simp), Out.ok_bind]
      have := ih h2 (fun y hy => ha y (by simp [hy])) (n := k) (by simpa using hn)
      rw [this]
      simp

theorem search_missing {L : Library σ ε} {f : View → Out (Option α)} {vs : List View} {e e' e'' : ε} {s s' s'' : σ}
    (h : Yields L e s vs e' s') (hr : L.read e' s' = .ok (false, e'', s'')) (ha : ∀ x ∈ vs, f x = .ok none) {n : Nat} (hn : vs.length < n) :
    searchLoop L f n e s = .ok (none, s'') := by
  induction h generalizing n with
  | nil =>
    obtain ⟨k, rfl⟩ : ∃ k, n = k + 1 := ⟨n - 1, by simp at hn; omega⟩
    rw [searchLoop, hr]; rfl
  | cons h1 _ ih =>
    obtain ⟨k, rfl⟩ : ∃ k, n = k + 1 := ⟨n - 1, by simp at hn; omega⟩
    rw [searchLoop, h1, Out.ok_bind]
    simp only [if_true]
    rw [ha _ (by simp), Out.ok_bind]
    exact ih hr (fun y hy => ha y (by simp [hy])) (by simpa using hn)

theorem lowercase_eq (c : Char) : lowercase c = c.toLower := by
  unfold lowercase Char.toLower
  by_cases h : 'A' ≤ c ∧ c ≤ 'Z'
  · have h' : 65 ≤ c.val ∧ c.val ≤ 90 := h
    have h2 : c.val ≥ 65 ∧ c.val ≤ 90 := h'
    rw [if_pos h]
    simp only [UInt32.le_iff_toNat_le] at h2
    have h3 : 65 ≤ c.toNat ∧ c.toNat ≤ 90 := h2
    split
    · rename_i h4
      apply Char.ext
      have : (c.toNat + 32).isValidChar := Or.inl (by omega)
      rw [Char.ofNat, dif_pos this]
      apply UInt32.toNat.inj
      have e2 : c.toNat = c.val.toNat := rfl
      show (c.toNat + 32) = (c.val + 32).toNat
      rw [UInt32.toNat_add, e2, Nat.mod_eq_of_lt]
      · rfl
      · show c.val.toNat + 32 < 2 ^ 32
        omega
    · rename_i h4
      exact absurd h' h4
  · rw [if_neg h]
    split
    · rename_i h4; exact absurd h4 h
    · rfl

/-- The names are the same but for upper and lower case. -/
def SameName (a b : Str) : Prop := a.map Char.toLower = b.map Char.toLower

/-- The entry has the name, and is on the number of bells unless that is 0. -/
def Answers (v : View) (name : Str) (stage : Int) : Prop := ∃ w, v.name = .ok w ∧ SameName w name ∧ (stage = 0 ∨ v.bells = stage)

theorem loadBody_none {v : View} {name w : Str} {stage : Int} (hw : v.name = .ok w) (h : ¬ Answers v name stage) :
    loadBody name stage v = .ok none := by
  unfold loadBody
  rw [hw, Out.ok_bind, if_neg]
  rintro ⟨h1, h2⟩
  apply h
  refine ⟨w, hw, ?_, h2⟩
  have e : (lowercase : Char → Char) = Char.toLower := funext lowercase_eq
  rwa [e] at h1

theorem loadBody_some {v : View} {name : Str} {stage : Int} (h : Answers v name stage) :
    loadBody name stage v = v.made >>= fun m => .ok (some m) := by
  obtain ⟨w, hw, h1, h2⟩ := h
  unfold loadBody
  have e : (lowercase : Char → Char) = Char.toLower := funext lowercase_eq
  rw [hw, Out.ok_bind, if_pos]
  rw [e]; exact ⟨h1, h2⟩

/-- C63: `load` gives the method of the first entry with the name and number of bells, or the exception its place
notation gives, and does not look at later entries. -/
theorem C63_load {L : Library σ ε} {s : σ} {a : List View} {v : View} {name : Str} {stage : Int} (h : Begins L s (a ++ [v]))
    (ha : ∀ x ∈ a, (∃ w, x.name = .ok w) ∧ ¬ Answers x name stage) (hv : Answers v name stage) {n : Nat} (hn : a.length < n) :
    ∃ s', load L n s name stage = v.made >>= fun m => .ok (m, s') := by
  obtain ⟨e', s', h⟩ := h
  refine ⟨s', ?_⟩
  unfold load search
  rw [search_found h (fun x hx => by obtain ⟨⟨w, hw⟩, h2⟩ := ha x hx; exact loadBody_none hw h2) hn, loadBody_some hv]
  cases v.made <;> rfl

/-- C63: `load` gives an exception if there is no such entry. -/
theorem C63_load_missing {L : Library σ ε} {s : σ} {vs : List View} {name : Str} {stage : Int} (h : Exactly L s vs)
    (ha : ∀ x ∈ vs, (∃ w, x.name = .ok w) ∧ ¬ Answers x name stage) {n : Nat} (hn : vs.length < n) :
    load L n s name stage = .throw .invalidArgument := by
  obtain ⟨e', s', e'', s'', h, hr⟩ := h
  unfold load search
  rw [search_missing h hr (fun x hx => by obtain ⟨⟨w, hw⟩, h2⟩ := ha x hx; exact loadBody_none hw h2) hn]
  rfl

/-- C63: `find` by method gives the first entry with the same changes, whatever its name; it needs the place
notation of the entries before it to be good. -/
theorem C63_find {L : Library σ ε} {s : σ} {a : List View} {v : View} {m : Method} (h : Begins L s (a ++ [v]))
    (ha : ∀ x ∈ a, ∃ k, x.meth = .ok k ∧ k.m.ch ≠ m.ch) {k : Named} (hv : v.meth = .ok k) (hk : k.m.ch = m.ch) {n : Nat} (hn : a.length < n) :
    ∃ s', findMethod L n s m = .ok (some v, s') := by
  obtain ⟨e', s', h⟩ := h
  refine ⟨s', ?_⟩
  unfold findMethod search
  rw [search_found h (fun x hx => by obtain ⟨k, h1, h2⟩ := ha x hx; rw [h1, Out.ok_bind, if_neg h2]) hn, hv, Out.ok_bind, if_pos hk]
  rfl

/-- C63: `find` by method gives a null entry if no entry has these changes. -/
theorem C63_find_missing {L : Library σ ε} {s : σ} {vs : List View} {m : Method} (h : Exactly L s vs)
    (ha : ∀ x ∈ vs, ∃ k, x.meth = .ok k ∧ k.m.ch ≠ m.ch) {n : Nat} (hn : vs.length < n) :
    ∃ s', findMethod L n s m = .ok (none, s') := by
  obtain ⟨e', s', e'', s'', h, hr⟩ := h
  refine ⟨s'', ?_⟩
  unfold findMethod search
  exact search_missing h hr (fun x hx => by obtain ⟨k, h1, h2⟩ := ha x hx; rw [h1, Out.ok_bind, if_neg h2]) hn

/-- The full name of an entry. -/
def HasTitle (past : Out Nat) (v : View) (t : Str) : Prop := ∃ k, v.meth = .ok k ∧ Method.fullnameC past k.name k.m 9999 = .ok t

/-- C63: `find` by title gives the first entry with this full name. -/
theorem C63_title {L : Library σ ε} {s : σ} {a : List View} {v : View} {t : Str} {past : Out Nat} (h : Begins L s (a ++ [v]))
    (ha : ∀ x ∈ a, ∃ u, HasTitle past x u ∧ u ≠ t) (hv : HasTitle past v t) {n : Nat} (hn : a.length < n) :
    ∃ s', findTitle L past n s t = .ok (some v, s') := by
  obtain ⟨e', s', h⟩ := h
  refine ⟨s', ?_⟩
  unfold findTitle search
  obtain ⟨k, h1, h2⟩ := hv
  rw [search_found h (fun x hx => by obtain ⟨u, ⟨k, h1, h2⟩, h3⟩ := ha x hx; rw [h1, Out.ok_bind, h2, Out.ok_bind, if_neg h3]) hn,
    h1, Out.ok_bind, h2, Out.ok_bind, if_pos rfl]
  rfl

/-- C63: `find` by title gives a null entry if no entry has this full name. -/
theorem C63_title_missing {L : Library σ ε} {s : σ} {vs : List View} {t : Str} {past : Out Nat} (h : Exactly L s vs)
    (ha : ∀ x ∈ vs, ∃ u, HasTitle past x u ∧ u ≠ t) {n : Nat} (hn : vs.length < n) :
    ∃ s', findTitle L past n s t = .ok (none, s') := by
  obtain ⟨e', s', e'', s'', h, hr⟩ := h
  refine ⟨s'', ?_⟩
  unfold findTitle search
  exact search_missing h hr (fun x hx => by obtain ⟨u, ⟨k, h1, h2⟩, h3⟩ := ha x hx; rw [h1, Out.ok_bind, h2, Out.ok_bind, if_neg h3]) hn

/-- Two entries in a lightweight library. -/
def twoMethods : Lite := Lite.ofFile 6 "x1x4,2 Foo\n-3-4,2\tBAR\n".toList true

example : (load lite 3 twoMethods "bar".toList 6 >>= fun r => .ok r.1) = .ok (⟨⟨6, [⟨6, [0, 2, 4]⟩, ⟨6, [0, 3]⟩, ⟨6, [0, 2, 4]⟩, ⟨6, [1, 4]⟩, ⟨6, [2, 4]⟩]⟩, "BAR".toList⟩) := by
  decide +kernel
example : load lite 3 twoMethods "bar".toList 8 = .throw .invalidArgument := by decide +kernel
example : ∃ vs, Exactly lite twoMethods vs ∧ vs.length = 2 := ⟨_, C63_list.1 ⟨3, _, rfl⟩, rfl⟩

end Ringing.Lib
