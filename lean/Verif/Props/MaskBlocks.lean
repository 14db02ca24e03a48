import Verif.Lemmas.MaskBlocks3

/-! C86: the expansion of masks in `methsearch`. -/
namespace Ringing
namespace Mask

/-- C86: with at most one part of unknown length (and hunt bells if there is a `/`) the mask is expanded to the one expansion it
has with as many positions as the lead; if it has none an exception is thrown. -/
theorem C86_expand {hunts leadLen : Nat} {ws : List (Block × Option Block)} (hw : ∀ w ∈ ws, WrittenPair w)
    (hsz : (ws.map weight).sum < 2 ^ 40) (hL : leadLen < 2 ^ 40) (hh : ∀ w ∈ ws, w.2 ≠ none → hunts ≠ 0)
    (h1 : ws.Pairwise fun a b => ¬(Unknown a ∧ Unknown b)) :
    (∃ x, expandC hunts leadLen ws = .ok x ∧ Expansion leadLen ws x ∧ ∀ y, Expansion leadLen ws y → y = x) ∨
    ((expandC hunts leadLen ws = .throw .invalidArgument ∨ expandC hunts leadLen ws = .throw .logicError) ∧ ∀ y, ¬Expansion leadLen ws y) := by
  rcases pairwise_split h1 with hk | ⟨ws0, w, ws2, rfl, hk0, hu, hk2⟩
  · exact expand_known hw hh hk hsz
  · exact expand_unknown hw hh hk0 hu hk2 hsz hL

/-- C86: an exception is thrown for two parts of unknown length, and for a `/` in the mask of a principle. -/
theorem C86_refused {hunts leadLen : Nat} {ws : List (Block × Option Block)} (hw : ∀ w ∈ ws, WrittenPair w)
    (hsz : (ws.map weight).sum < 2 ^ 40)
    (h : (∃ w ∈ ws, w.2 ≠ none ∧ hunts = 0) ∨ ∃ x y z a b, ws = x ++ a :: y ++ b :: z ∧ Unknown a ∧ Unknown b) :
    expandC hunts leadLen ws = .throw .invalidArgument ∨ expandC hunts leadLen ws = .throw .logicError := by
  unfold expandC
  rcases loop_total (hunts := hunts) {} hw hsz with hb | ⟨h1, -, h3⟩
  · exact hb.bind _
  · rcases h with ⟨w, hw, h2, h4⟩ | ⟨x, y, z, a, b, rfl, ha, hb⟩
    · exact absurd h4 (h1 w hw h2)
    · exact absurd ⟨ha, hb⟩ ((List.pairwise_append.1 h3).2.2 a (by simp) b (by simp))

/-- C86: whatever the mask, what is returned is an expansion of it. -/
theorem C86_sound {hunts leadLen : Nat} {ws : List (Block × Option Block)} (hw : ∀ w ∈ ws, WrittenPair w)
    (hsz : (ws.map weight).sum < 2 ^ 40) (hL : leadLen < 2 ^ 40) {x : List (List Change) × List (List Change)}
    (h : expandC hunts leadLen ws = .ok x) : Expansion leadLen ws x := by
  have h' := h
  unfold expandC at h'
  rcases loop_total (hunts := hunts) {} hw hsz with hb | ⟨h1, -, h3⟩
  · rcases hb with hb | hb <;> rw [hb] at h' <;> cases h'
  · rcases C86_expand hw hsz hL h1 h3 with ⟨y, hy, he, -⟩ | ⟨hb | hb, -⟩
    · rw [h] at hy; cases hy; exact he
    · rw [h] at hb; cases hb
    · rw [h] at hb; cases hb

/-- C86: the positions above and below are as many as the lead has changes. -/
theorem C86_length {hunts leadLen : Nat} {ws : List (Block × Option Block)} (hw : ∀ w ∈ ws, WrittenPair w)
    (hsz : (ws.map weight).sum < 2 ^ 40) (hL : leadLen < 2 ^ 40) {x : List (List Change) × List (List Change)}
    (h : expandC hunts leadLen ws = .ok x) : x.1.length = leadLen ∧ x.2.length = leadLen := by
  obtain ⟨h0, ls, hF, h1, h2⟩ := C86_sound hw hsz hL h
  exact ⟨h0, by rw [← h0, h1, h2]; exact (up_down_length hF).symm⟩

/-- C86: a mask without `*` and `/` is used as it is, if it is as long as the lead. -/
theorem C86_plain {hunts : Nat} {w : Block} (hs : w.star = none) (hr : w.isSym = false) (hl : w.data.length < 2 ^ 39) :
    expandC hunts w.data.length [(w, none)] = .ok (w.data, w.data) := by
  have hwt : weight (w, none) = w.data.length + w.data.length := by simp [weight, reflected, hr]
  have hW : WrittenPair (w, none) := ⟨⟨fun i hi => (by rw [hs] at hi; cases hi), fun h => by rw [hr] at h; cases h⟩, fun b hb => by cases hb⟩
  have he : Expansion w.data.length [(w, none)] (w.data, w.data) := by
    have hf : Fills w w.data := by rw [fills_none hs]; simp [reflected, hr]
    exact ⟨rfl, [(w.data, w.data)], .cons ⟨rfl, hf, hf⟩ .nil, by simp, by simp⟩
  rcases C86_expand (hunts := hunts) (leadLen := w.data.length) (ws := [(w, none)]) (by simpa using hW) (by simp [hwt]; omega) (by omega) (by simp) (by simp) with ⟨x, h1, -, h3⟩ | ⟨-, h2⟩
  · rw [h1, h3 _ he]
  · exact absurd he (h2 _)

/-- C86: a `&` without a change after it leaves nothing to reflect: the code steps past the end of an empty vector. -/
theorem C86_empty_reflected (hunts leadLen : Nat) (w : Block) (b : Option Block) (ws : List (Block × Option Block)) (h : w.isSym = true) (hd : w.data = []) :
    expandC hunts leadLen ((w, b) :: ws) = .ub := by
  have : reflectC w = .ub := by unfold reflectC; rw [if_pos h, if_pos hd]
  unfold expandC addBlocksC turnC
  simp only
  rw [this]; rfl

/-- `&-3*,12` is expanded to the lead of eight changes `-3???3-` and `12`. -/
def exampleWs : List (Block × Option Block) :=
  [({ data := [[⟨4, [0, 2]⟩], [⟨4, [0]⟩], []], isSym := true, star := some 2 }, none), ({ data := [[⟨4, [2]⟩]], isSym := false, star := none }, none)]

example : expandC 1 8 exampleWs = .ok (
    [[⟨4, [0, 2]⟩], [⟨4, [0]⟩], [], [], [], [⟨4, [0]⟩], [⟨4, [0, 2]⟩], [⟨4, [2]⟩]], [[⟨4, [0, 2]⟩], [⟨4, [0]⟩], [], [], [], [⟨4, [0]⟩], [⟨4, [0, 2]⟩], [⟨4, [2]⟩]]) := by
  decide +kernel

/-- In a lead of nine changes the reflected part would have an even number of positions. -/
example : expandC 1 9 exampleWs = .throw .invalidArgument := by decide +kernel

/-- In a lead of four the mask is too long: the test `expand_by < 0` is of a `size_t` and what is thrown is the `length_error` of the vector. -/
example : expandC 1 4 exampleWs = .throw .logicError := by decide +kernel

example : (∀ w ∈ exampleWs, WrittenPair w) ∧ (exampleWs.map weight).sum < 2 ^ 40 ∧ (exampleWs.Pairwise fun a b => ¬(Unknown a ∧ Unknown b)) := by
  refine ⟨?_, by decide, ?_⟩
  · intro w hw
    simp only [exampleWs, List.mem_cons, List.not_mem_nil, or_false] at hw
    rcases hw with rfl | rfl
    · exact ⟨⟨fun i hi => by cases hi; rfl, fun _ => by simp⟩, fun b hb => by cases hb⟩
    · exact ⟨⟨fun i hi => (by cases hi), fun h => (by cases h)⟩, fun b hb => by cases hb⟩
  · simp [exampleWs, Unknown]

/-- With a part above and one below the treble: `-*/3-3` . -/
example : expandC 1 3 [({ data := [[⟨4, [0, 2]⟩], []], isSym := false, star := some 1 }, some { data := [[⟨4, [0]⟩], [⟨4, [0, 2]⟩], [⟨4, [0]⟩]], isSym := false, star := none })] =
    .ok ([[⟨4, [0, 2]⟩], [], []], [[⟨4, [0]⟩], [⟨4, [0, 2]⟩], [⟨4, [0]⟩]]) := by decide +kernel

end Mask
end Ringing
