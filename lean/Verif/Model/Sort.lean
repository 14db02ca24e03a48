/-
`std::sort`: the model is an insertion sort.  Where the order is a total order on values that cannot be
told apart when equal, every correct sort has the same result, so nothing depends on this choice.
-/
namespace Ringing

/-- One insertion. -/
def insertBy {α : Type} (le : α → α → Bool) (a : α) : List α → List α
  | [] => [a]
  | x :: l => if le a x then a :: x :: l else x :: insertBy le a l

/-- `std::sort` with `le a b` for "not `b` before `a`" (used at group.cpp:200, 231, 252, 290). -/
def sortBy {α : Type} (le : α → α → Bool) : List α → List α
  | [] => []
  | a :: l => insertBy le a (sortBy le l)

theorem insertBy_perm {α : Type} (le : α → α → Bool) (a : α) : ∀ l : List α, (insertBy le a l).Perm (a :: l)
  | [] => List.Perm.refl _
  | x :: l => by
    unfold insertBy
    split
    · exact List.Perm.refl _
    · exact ((insertBy_perm le a l).cons x).trans (List.Perm.swap a x l)

theorem sortBy_perm {α : Type} (le : α → α → Bool) : ∀ l : List α, (sortBy le l).Perm l
  | [] => List.Perm.refl _
  | a :: l => (insertBy_perm le a _).trans ((sortBy_perm le l).cons a)

theorem insertBy_pairwise {α : Type} {le : α → α → Bool}
    (htr : ∀ a b c, le a b = true → le b c = true → le a c = true) (htot : ∀ a b, (le a b || le b a) = true)
    (a : α) : ∀ l : List α, l.Pairwise (fun x y => le x y = true) →
      (insertBy le a l).Pairwise (fun x y => le x y = true)
  | [], _ => by simp [insertBy]
  | x :: l, h => by
    have h' := List.pairwise_cons.1 h
    unfold insertBy
    split
    · rename_i hx
      refine List.pairwise_cons.2 ⟨?_, h⟩
      intro y hy
      rcases List.mem_cons.1 hy with rfl | hy
      · exact hx
      · exact htr _ _ _ hx (h'.1 y hy)
    · rename_i hx
      refine List.pairwise_cons.2 ⟨?_, insertBy_pairwise htr htot a l h'.2⟩
      intro y hy
      rcases List.mem_cons.1 ((insertBy_perm le a l).mem_iff.1 hy) with rfl | hy
      · have := htot y x
        cases h1 : le y x
        · rw [h1] at this; simpa using this
        · exact absurd h1 hx
      · exact h'.1 y hy

theorem sortBy_pairwise {α : Type} {le : α → α → Bool}
    (htr : ∀ a b c, le a b = true → le b c = true → le a c = true) (htot : ∀ a b, (le a b || le b a) = true) :
    ∀ l : List α, (sortBy le l).Pairwise (fun x y => le x y = true)
  | [] => List.Pairwise.nil
  | a :: l => insertBy_pairwise htr htot a _ (sortBy_pairwise htr htot l)

end Ringing
