import Verif.Lemmas.OverUnder
import Verif.Props.MethodUtils

/-! C79: overwork, underwork and the old lead head codes of apps/methsearch/methodutils.cpp. -/
namespace Ringing
open Spec Row MethodUtils

/-- C79: `split_over_and_under` always answers, with two sequences of changes on the same bells: the work
above the treble and the work below it. -/
theorem C79_split {m : Method} (hb : m.b ≤ 255) (h1 : 1 ≤ m.b)
    (hm : ∀ c ∈ m.ch, IsChange c.n c.swaps ∧ c.n = m.b) :
    ∃ o u, splitOverUnderC m = .ok (o, u) ∧
      (m.ch ≠ [] → o.b = m.b ∧ u.b = m.b) ∧
      (∀ c ∈ o.ch, IsChange c.n c.swaps ∧ c.n = m.b) ∧ (∀ c ∈ u.ch, IsChange c.n c.swaps ∧ c.n = m.b) ∧
      OverWork (m.ch.map Change.swaps) (o.ch.map Change.swaps) ∧
      UnderWork m.b (m.ch.map Change.swaps) (u.ch.map Change.swaps) := by
  have hn : ∀ c ∈ m.ch, c.n = m.b := fun c hc => (hm c hc).2
  have key := splitLoop_spec hb h1 (cs := m.ch) (pre := []) (over := ⟨0, []⟩) (under := ⟨0, []⟩) (by simp) hm
  rw [foldl_pushBack (n_overList hn), foldl_pushBack (n_underList hn)] at key
  have lt : ∀ k, follow ((m.ch.map Change.swaps).take k) 0 < m.b := by
    intro k
    rw [← List.map_take]
    exact follow_lt hb (fun c hc => hm c (List.mem_of_mem_take hc)) (by omega)
  have low : ∀ k, trebleLow (m.ch.map Change.swaps) k < m.b := by
    intro k; have := lt k; unfold trebleLow; omega
  have high : ∀ k, trebleHigh (m.ch.map Change.swaps) k < m.b := by
    intro k; have := lt k; have := lt (k + 1); unfold trebleHigh; omega
  have key2 : splitOverUnderC m = splitLoop m.b m.ch ((rounds m.b).applyAll []) ⟨0, []⟩ ⟨0, []⟩ := by
    unfold splitOverUnderC
    rw [roundsC_eq (by omega)]
    rfl
  refine ⟨_, _, key2.trans key, ?_, ?_, ?_, ?_, ?_⟩
  · intro hne
    have a : overList (follow (([] : List Change).map Change.swaps) 0) m.ch ≠ [] := by
      intro h; have := congrArg List.length h
      rw [length_overList] at this; exact hne (List.length_eq_zero_iff.1 this)
    have b : underList (follow (([] : List Change).map Change.swaps) 0) m.ch ≠ [] := by
      intro h; have := congrArg List.length h
      rw [length_underList] at this; exact hne (List.length_eq_zero_iff.1 this)
    simp only [if_neg a, if_neg b]
    omega
  · intro c hc
    simp only [List.nil_append] at hc
    obtain ⟨k, hk⟩ := List.getElem?_of_mem hc
    rw [getElem?_overList] at hk
    obtain ⟨d, hd, rfl⟩ := Option.map_eq_some_iff.1 hk
    have hd' := hm d (List.mem_of_getElem? hd)
    exact ⟨overChange_wf hd'.1 (by rw [hd'.2]; exact low k), hd'.2⟩
  · intro c hc
    simp only [List.nil_append] at hc
    obtain ⟨k, hk⟩ := List.getElem?_of_mem hc
    rw [getElem?_underList] at hk
    obtain ⟨d, hd, rfl⟩ := Option.map_eq_some_iff.1 hk
    have hd' := hm d (List.mem_of_getElem? hd)
    exact ⟨underChange_wf hd'.1 (by rw [hd'.2]; exact high k), hd'.2⟩
  · refine ⟨by simp [length_overList], ?_⟩
    intro k ss tt h1 h2 s
    rw [List.nil_append, List.getElem?_map, getElem?_overList] at h2
    rw [List.getElem?_map] at h1
    obtain ⟨c, hc, rfl⟩ := Option.map_eq_some_iff.1 h1
    rw [hc] at h2
    simp only [Option.map_some, Option.some.injEq] at h2
    subst h2
    have hc' := hm c (List.mem_of_getElem? hc)
    exact mem_overChange hc'.1 (by rw [hc'.2]; exact low k) s
  · refine ⟨by simp [length_underList], ?_⟩
    intro k ss tt h1 h2 s
    rw [List.nil_append, List.getElem?_map, getElem?_underList] at h2
    rw [List.getElem?_map] at h1
    obtain ⟨c, hc, rfl⟩ := Option.map_eq_some_iff.1 h1
    rw [hc] at h2
    simp only [Option.map_some, Option.some.injEq] at h2
    subst h2
    have hc' := hm c (List.mem_of_getElem? hc)
    rw [← hc'.2]
    exact mem_underChange hc'.1 (by rw [hc'.2]; exact high k) s

/-- At a change the treble does in the overwork and the underwork what it does in the method. -/
theorem treble_step {n : Nat} {ss tt : List Nat} {a : Nat} (hs : IsChange n ss) (ht : IsChange n tt)
    (h : (∀ s, s ∈ tt ↔ (min a (moveTo ss a) ≤ s ∧ s ∈ ss) ∨
        (s + 2 ≤ min a (moveTo ss a) ∧ s % 2 = min a (moveTo ss a) % 2)) ∨
      (∀ s, s ∈ tt ↔ (s + 1 ≤ max a (moveTo ss a) ∧ s ∈ ss) ∨
        (max a (moveTo ss a) < s ∧ s + 2 ≤ n ∧ s % 2 = (max a (moveTo ss a) + 1) % 2))) :
    moveTo tt a = moveTo ss a := by
  have gs : Change.Gap ss := hs.2.1
  have gt : Change.Gap tt := ht.2.1
  by_cases h1 : a ∈ ss
  · have e := Change.moveTo_mem h1
    rw [e] at h ⊢
    refine Change.moveTo_mem ?_
    rcases h with h | h
    · exact (h a).2 (Or.inl ⟨by omega, h1⟩)
    · exact (h a).2 (Or.inl ⟨by omega, h1⟩)
  · by_cases h2 : a ≠ 0 ∧ a - 1 ∈ ss
    · obtain ⟨b, rfl⟩ : ∃ b, a = b + 1 := ⟨a - 1, by omega⟩
      simp only [Nat.add_sub_cancel] at h2
      have e := Change.moveTo_mem_succ gs h2.2
      rw [e] at h ⊢
      refine Change.moveTo_mem_succ gt ?_
      rcases h with h | h
      · exact (h b).2 (Or.inl ⟨by omega, h2.2⟩)
      · exact (h b).2 (Or.inl ⟨by omega, h2.2⟩)
    · have e : moveTo ss a = a := by unfold moveTo; rw [if_neg h1, if_neg h2]
      rw [e] at h ⊢
      rw [moveTo_fixed]
      rw [moveTo_fixed] at e
      constructor
      · intro hm
        rcases h with h | h
        · rcases (h a).1 hm with ⟨-, h'⟩ | ⟨h', -⟩
          · exact h1 h'
          · omega
        · rcases (h a).1 hm with ⟨-, h'⟩ | ⟨h', -⟩
          · exact h1 h'
          · omega
      · intro s hm he
        rcases h with h | h
        · rcases (h s).1 hm with ⟨h', h''⟩ | ⟨h', -⟩
          · exact e.2 s h'' he
          · omega
        · rcases (h s).1 hm with ⟨h', h''⟩ | ⟨h', -⟩
          · exact e.2 s h'' he
          · omega

/-- C79: in the overwork and in the underwork the treble does what it does in the method. -/
theorem C79_treble {m : Method} (hb : m.b ≤ 255) (h1 : 1 ≤ m.b)
    (hm : ∀ c ∈ m.ch, IsChange c.n c.swaps ∧ c.n = m.b) {o u : Method} (h : splitOverUnderC m = .ok (o, u)) (k : Nat) :
    follow ((o.ch.map Change.swaps).take k) 0 = follow ((m.ch.map Change.swaps).take k) 0 ∧
      follow ((u.ch.map Change.swaps).take k) 0 = follow ((m.ch.map Change.swaps).take k) 0 := by
  obtain ⟨o', u', e, -, wo, wu, ho, hu⟩ := C79_split hb h1 hm
  rw [h] at e
  obtain ⟨rfl, rfl⟩ := Prod.mk.inj (Out.ok.inj e)
  have step : ∀ {w : Method}, (∀ c ∈ w.ch, IsChange c.n c.swaps ∧ c.n = m.b) →
      w.ch.length = m.ch.length →
      (∀ k c d, m.ch[k]? = some c → w.ch[k]? = some d →
        (∀ s, s ∈ d.swaps ↔ (trebleLow (m.ch.map Change.swaps) k ≤ s ∧ s ∈ c.swaps) ∨
          (s + 2 ≤ trebleLow (m.ch.map Change.swaps) k ∧ s % 2 = trebleLow (m.ch.map Change.swaps) k % 2)) ∨
        (∀ s, s ∈ d.swaps ↔ (s + 1 ≤ trebleHigh (m.ch.map Change.swaps) k ∧ s ∈ c.swaps) ∨
          (trebleHigh (m.ch.map Change.swaps) k < s ∧ s + 2 ≤ m.b ∧
            s % 2 = (trebleHigh (m.ch.map Change.swaps) k + 1) % 2))) →
      ∀ k, follow ((w.ch.map Change.swaps).take k) 0 = follow ((m.ch.map Change.swaps).take k) 0 := by
    intro w hw hl hk k
    induction k with
    | zero => rfl
    | succ k ih =>
      by_cases hlt : k < m.ch.length
      · have e1 := follow_take_succ (css := m.ch.map Change.swaps) (k := k) (by simpa using hlt) 0
        have e2 := follow_take_succ (css := w.ch.map Change.swaps) (k := k) (by simpa [hl] using hlt) 0
        have hc := List.getElem?_eq_getElem hlt
        have hd := List.getElem?_eq_getElem (l := w.ch) (i := k) (by omega)
        have hh := hk k _ _ hc hd
        unfold trebleLow trebleHigh at hh
        rw [e1] at hh ⊢
        rw [e2, ih]
        simp only [List.getElem_map] at hh ⊢
        have hc' := hm _ (List.mem_of_getElem? hc)
        have hd' := hw _ (List.mem_of_getElem? hd)
        refine treble_step (n := m.b) ?_ ?_ hh
        · rw [← hc'.2]; exact hc'.1
        · have := hd'.1; rw [hd'.2] at this; exact this
      · rw [List.take_of_length_le (by rw [List.length_map]; omega), List.take_of_length_le (by rw [List.length_map]; omega)]
        rwa [List.take_of_length_le (by rw [List.length_map]; omega), List.take_of_length_le (by rw [List.length_map]; omega)] at ih
  constructor
  · refine step wo (by simpa using ho.1) ?_ k
    intro k c d hc hd
    exact Or.inl (ho.2 k c.swaps d.swaps (by rw [List.getElem?_map, hc]; rfl) (by rw [List.getElem?_map, hd]; rfl))
  · refine step wu (by simpa using hu.1) ?_ k
    intro k c d hc hd
    exact Or.inr (hu.2 k c.swaps d.swaps (by rw [List.getElem?_map, hc]; rfl) (by rw [List.getElem?_map, hd]; rfl))

/-- C79: the overwork and the underwork together determine the method. -/
theorem C79_determine {m m' : Method} (hb : m.b ≤ 255) (h1 : 1 ≤ m.b) (hbb : m'.b = m.b)
    (hm : ∀ c ∈ m.ch, IsChange c.n c.swaps ∧ c.n = m.b) (hm' : ∀ c ∈ m'.ch, IsChange c.n c.swaps ∧ c.n = m'.b)
    (h : splitOverUnderC m = splitOverUnderC m') : m = m' := by
  obtain ⟨o, u, e, -, -, -, ho, hu⟩ := C79_split hb h1 hm
  obtain ⟨o', u', e', -, -, -, ho', hu'⟩ := C79_split (by omega) (by omega) hm'
  have t := fun k => (C79_treble hb h1 hm e k).1
  have t' := fun k => (C79_treble (by omega) (by omega) hm' e' k).1
  rw [e, e'] at h
  obtain ⟨rfl, rfl⟩ := Prod.mk.inj (Out.ok.inj h)
  have path : ∀ k, follow ((m.ch.map Change.swaps).take k) 0 = follow ((m'.ch.map Change.swaps).take k) 0 :=
    fun k => (t k).symm.trans (t' k)
  have hl : m.ch.length = m'.ch.length := by
    have a := ho.1; have b := ho'.1; simp only [List.length_map] at a b; omega
  cases m with
  | mk b ch =>
  cases m' with
  | mk b' ch' =>
  simp only at *
  subst hbb
  congr 1
  refine List.ext_getElem? fun k => ?_
  by_cases hk : k < ch.length
  · have hc := List.getElem?_eq_getElem hk
    have hd := List.getElem?_eq_getElem (l := ch') (i := k) (by omega)
    rw [hc, hd]
    congr 1
    set c := ch[k] with hcdef
    set d := ch'[k] with hddef
    have wc := hm c (List.getElem_mem _)
    have wd := hm' d (List.getElem_mem _)
    have lo : trebleLow (ch'.map Change.swaps) k = trebleLow (ch.map Change.swaps) k := by
      unfold trebleLow; rw [path k, path (k + 1)]
    have hi : trebleHigh (ch'.map Change.swaps) k = trebleHigh (ch.map Change.swaps) k := by
      unfold trebleHigh; rw [path k, path (k + 1)]
    have le : trebleLow (ch.map Change.swaps) k ≤ trebleHigh (ch.map Change.swaps) k := by
      unfold trebleLow trebleHigh; omega
    have hok : k < (o.ch.map Change.swaps).length := by rw [ho.1]; simpa using hk
    have huk : k < (u.ch.map Change.swaps).length := by rw [hu.1]; simpa using hk
    have a1 := ho.2 k c.swaps _ (by rw [List.getElem?_map, hc]; rfl) (List.getElem?_eq_getElem hok)
    have a2 := ho'.2 k d.swaps _ (by rw [List.getElem?_map, hd]; rfl) (List.getElem?_eq_getElem hok)
    have b1 := hu.2 k c.swaps _ (by rw [List.getElem?_map, hc]; rfl) (List.getElem?_eq_getElem huk)
    have b2 := hu'.2 k d.swaps _ (by rw [List.getElem?_map, hd]; rfl) (List.getElem?_eq_getElem huk)
    rw [lo] at a2
    rw [hi] at b2
    have sw : c.swaps = d.swaps := by
      refine List.Perm.eq_of_pairwise (le := (· < ·)) (fun x y _ _ h1 h2 => by omega)
        (wc.1.2.1.imp (fun h => by omega)) (wd.1.2.1.imp (fun h => by omega)) ?_
      rw [List.perm_ext_iff_of_nodup (wc.1.2.1.imp (fun h => by omega)) (wd.1.2.1.imp (fun h => by omega))]
      intro s
      by_cases hs : trebleLow (ch.map Change.swaps) k ≤ s
      · have := (a1 s).symm.trans (a2 s)
        constructor
        · intro h
          rcases this.1 (Or.inl ⟨hs, h⟩) with h | h
          · exact h.2
          · omega
        · intro h
          rcases this.2 (Or.inl ⟨hs, h⟩) with h | h
          · exact h.2
          · omega
      · have := (b1 s).symm.trans (b2 s)
        constructor
        · intro h
          rcases this.1 (Or.inl ⟨by omega, h⟩) with h | h
          · exact h.2
          · omega
        · intro h
          rcases this.2 (Or.inl ⟨by omega, h⟩) with h | h
          · exact h.2
          · omega
    have nn : c.n = d.n := wc.2.trans wd.2.symm
    cases hce : c; cases hde : d
    rw [hce, hde] at sw nn
    simp only at sw nn
    rw [sw, nn]
  · rw [List.getElem?_eq_none (by omega), List.getElem?_eq_none (by omega)]

/-- Plain Bob Minimus: the place 2 at the lead end is above the treble, so the underwork has 14 there. -/
example : splitOverUnderC exBob = .ok
    (⟨4, [⟨4, [0, 2]⟩, ⟨4, [1]⟩, ⟨4, [0, 2]⟩, ⟨4, [1]⟩, ⟨4, [0, 2]⟩, ⟨4, [1]⟩, ⟨4, [0, 2]⟩, ⟨4, [2]⟩]⟩,
     ⟨4, [⟨4, [0, 2]⟩, ⟨4, [1]⟩, ⟨4, [0, 2]⟩, ⟨4, [1]⟩, ⟨4, [0, 2]⟩, ⟨4, [1]⟩, ⟨4, [0, 2]⟩, ⟨4, [1]⟩]⟩) := by
  decide +kernel

end Ringing
