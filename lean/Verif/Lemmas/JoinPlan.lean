import Verif.Spec.JoinPlan
import Verif.Lemmas.Row
/-! The search by a plan: it is complete, sound and gives no touch twice. -/
namespace Ringing
namespace JoinPlan

/-- The search without the results of a run. -/
def runP (S : Search) : Nat → Row → Nat → List Row → List Nat → List (List Nat)
  | 0, _, _, _, _ => []
  | f + 1, lh, d, leads, comp =>
    match S.plan.lookup lh with
    | none => []
    | some m =>
      let le := Row.mul lh (S.les.getD m [])
      if lh ∈ leads ∨ le ∈ leads then (if S.lo ≤ d ∧ Row.isrounds lh = true then [comp] else [])
      else if d < S.hi then
        (List.range S.calls.length).flatMap fun i =>
          runP S f (Row.mul le (S.calls.getD i [])) (d + S.lens.getD m 0) (lh :: le :: leads) (comp ++ [node S m i])
      else []

/-- The lead heads of the plan not yet had. -/
def cnt (S : Search) (leads : List Row) : Nat := ((S.plan.map Prod.fst).filter fun r => r ∉ leads).length

theorem collect_ok {α β : Type} (g : β → List α) (l : List β) : collect (l.map fun i => .ok (g i)) = .ok (l.flatMap g) := by
  induction l with
  | nil => rfl
  | cons a l ih => simp only [List.map_cons, collect, ih, List.flatMap_cons]; rfl

theorem mem_keys {S : Search} {h : Row} {m : Nat} (e : S.plan.lookup h = some m) : h ∈ S.plan.map Prod.fst := by
  have : ∀ l : List (Row × Nat), l.lookup h = some m → h ∈ l.map Prod.fst := by
    intro l
    induction l with
    | nil => simp [List.lookup]
    | cons a l ih =>
      obtain ⟨k, v⟩ := a
      intro e
      rw [List.lookup_cons] at e
      by_cases hk : h = k
      · simp [hk]
      · have : (h == k) = false := by simpa using hk
        rw [this] at e
        simp [ih e]
  exact this _ e

theorem filter_lt {α : Type} [DecidableEq α] (l : List α) (p q : α → Bool) (hpq : ∀ x, q x = true → p x = true) (a : α)
    (ha : a ∈ l) (hp : p a = true) (hq : q a = false) : (l.filter q).length < (l.filter p).length := by
  have le : ∀ l : List α, (l.filter q).length ≤ (l.filter p).length := by
    intro l
    induction l with
    | nil => simp
    | cons x l ih =>
      rw [List.filter_cons, List.filter_cons]
      by_cases h : q x = true
      · rw [if_pos h, if_pos (hpq x h)]; simpa using ih
      · rw [if_neg h]; split
        · simp; omega
        · exact ih
  induction l with
  | nil => simp at ha
  | cons x l ih =>
    rw [List.filter_cons, List.filter_cons]
    rcases List.mem_cons.1 ha with h | h
    · subst h
      rw [hp, hq]
      have := le l
      simp; omega
    · have := ih h
      by_cases h : q x = true
      · rw [if_pos h, if_pos (hpq x h)]; simpa using this
      · rw [if_neg h]; split
        · simp; omega
        · exact this

theorem cnt_lt {S : Search} {h : Row} {m : Nat} (e : S.plan.lookup h = some m) {leads : List Row} (hn : h ∉ leads) (le : Row) :
    cnt S (h :: le :: leads) < cnt S leads :=
  filter_lt _ _ _ (fun x hx => by simp only [decide_eq_true_eq, List.mem_cons, not_or] at hx ⊢; exact hx.2.2) h (mem_keys e)
    (by simpa using hn) (by simp)

theorem runC_eq (S : Search) : ∀ (f : Nat) (lh : Row) (d : Nat) (leads : List Row) (comp : List Nat), cnt S leads < f →
    runC S f lh d leads comp = .ok (runP S f lh d leads comp) := by
  intro f
  induction f with
  | zero => intro _ _ _ _ h; omega
  | succ f ih =>
    intro lh d leads comp hf
    rw [runC, runP]
    cases e : S.plan.lookup lh with
    | none => rfl
    | some m =>
      dsimp only
      by_cases hs : lh ∈ leads ∨ Row.mul lh (S.les.getD m []) ∈ leads
      · rw [if_pos hs, if_pos hs]
      · rw [if_neg hs, if_neg hs]
        by_cases hd : d < S.hi
        · rw [if_pos hd, if_pos hd, ← collect_ok]
          have := cnt_lt e (fun h => hs (Or.inl h)) (Row.mul lh (S.les.getD m []))
          congr 1
          refine List.map_congr_left fun i _ => ih _ _ _ _ (by omega)
        · rw [if_neg hd, if_neg hd]

/-- The calls are a way through the search from `h`. -/
def Ext (S : Search) : (seen : List Row) → (h : Row) → (d : Nat) → List Nat → Prop
  | seen, h, d, [] => (S.plan.lookup h).isSome ∧ (h ∈ seen ∨ leadEnd S h ∈ seen) ∧ S.lo ≤ d ∧ Row.isrounds h = true
  | seen, h, d, c :: cs => (S.plan.lookup h).isSome ∧ ¬ (h ∈ seen ∨ leadEnd S h ∈ seen) ∧ d < S.hi ∧ c < S.calls.length ∧
    Ext S (h :: leadEnd S h :: seen) (next S h c) (d + S.lens.getD (methodAt S h) 0) cs

theorem mem_runP (S : Search) : ∀ (f : Nat) (h : Row) (d : Nat) (seen : List Row) (comp x : List Nat),
    x ∈ runP S f h d seen comp ↔ ∃ cs, cs.length < f ∧ Ext S seen h d cs ∧ x = comp ++ nodes S h cs := by
  intro f
  induction f with
  | zero => intro h d seen comp x; simp [runP]
  | succ f ih =>
    intro h d seen comp x
    rw [runP]
    cases e : S.plan.lookup h with
    | none =>
      constructor
      · intro hx; simp at hx
      · rintro ⟨cs, _, hE, _⟩
        cases cs <;> simp [Ext, e] at hE
    | some m =>
      have hm : methodAt S h = m := by simp [methodAt, e]
      have hle : Row.mul h (S.les.getD m []) = leadEnd S h := by rw [leadEnd, hm]
      dsimp only
      rw [hle]
      by_cases hs : h ∈ seen ∨ leadEnd S h ∈ seen
      · rw [if_pos hs]
        constructor
        · intro hx
          by_cases hc : S.lo ≤ d ∧ Row.isrounds h = true
          · rw [if_pos hc] at hx
            refine ⟨[], by simp, ⟨by simp [e], hs, hc.1, hc.2⟩, ?_⟩
            simpa [nodes] using hx
          · rw [if_neg hc] at hx; simp at hx
        · rintro ⟨cs, _, hE, hx⟩
          cases cs with
          | nil => rw [if_pos ⟨hE.2.2.1, hE.2.2.2⟩]; simpa [nodes] using hx
          | cons c cs => exact absurd hs hE.2.1
      · rw [if_neg hs]
        by_cases hd : d < S.hi
        · rw [if_pos hd, List.mem_flatMap]
          constructor
          · rintro ⟨i, hi, hx⟩
            obtain ⟨cs, hl, hE, hx⟩ := (ih _ _ _ _ _).1 hx
            refine ⟨i :: cs, by simpa using hl, ⟨by simp [e], hs, hd, List.mem_range.1 hi, ?_⟩, ?_⟩
            · rw [hm]; exact hE
            · rw [hx, nodes, hm]; simp [next]
          · rintro ⟨cs, hl, hE, hx⟩
            cases cs with
            | nil => exact absurd hE.2.1 hs
            | cons c cs =>
              obtain ⟨_, _, _, hc, hE⟩ := hE
              rw [hm] at hE
              refine ⟨c, List.mem_range.2 hc, (ih _ _ _ _ _).2 ⟨cs, by simpa using hl, hE, ?_⟩⟩
              rw [hx, nodes, hm]; simp [next]
        · rw [if_neg hd]
          constructor
          · intro hx; simp at hx
          · rintro ⟨cs, _, hE, _⟩
            cases cs with
            | nil => exact absurd hE.2.1 hs
            | cons c cs => exact absurd hE.2.2.1 hd

theorem Ext_length (S : Search) : ∀ (cs : List Nat) (seen : List Row) (h : Row) (d : Nat), Ext S seen h d cs →
    cs.length ≤ cnt S seen := by
  intro cs
  induction cs with
  | nil => intros; simp
  | cons c cs ih =>
    intro seen h d hE
    obtain ⟨hsome, hs, _, _, hE⟩ := hE
    obtain ⟨m, e⟩ := Option.isSome_iff_exists.1 hsome
    have h1 := ih _ _ _ hE
    have h2 := cnt_lt e (fun h' => hs (Or.inl h')) (leadEnd S h)
    simp only [List.length_cons]; omega

theorem node_inj {S : Search} {m i j : Nat} (h : node S m i = node S m j) : i = j := by
  unfold node at h
  have : i * (S.les.length + 1) = j * (S.les.length + 1) := by omega
  exact Nat.eq_of_mul_eq_mul_right (by omega) this

theorem nodup_runP (S : Search) : ∀ (f : Nat) (h : Row) (d : Nat) (seen : List Row) (comp : List Nat),
    (runP S f h d seen comp).Nodup := by
  intro f
  induction f with
  | zero => intro h d seen comp; simp [runP]
  | succ f ih =>
    intro h d seen comp
    rw [runP]
    cases e : S.plan.lookup h with
    | none => simp
    | some m =>
      dsimp only
      split
      · split <;> simp
      · split
        · rw [List.nodup_flatMap]
          refine ⟨fun i _ => ih _ _ _ _, ?_⟩
          refine List.Pairwise.imp ?_ (List.nodup_range (n := S.calls.length))
          intro i j hij x hx hy
          obtain ⟨cs, _, _, hx⟩ := (mem_runP S _ _ _ _ _ _).1 hx
          obtain ⟨cs', _, _, hy⟩ := (mem_runP S _ _ _ _ _ _).1 hy
          rw [hx] at hy
          simp only [List.append_assoc, List.append_cancel_left_eq, List.singleton_append, List.cons.injEq] at hy
          exact hij (node_inj hy.1)
        · simp

theorem length_cons (S : Search) (h : Row) (l : List Row) : length S (h :: l) = S.lens.getD (methodAt S h) 0 + length S l := by
  simp [length]

theorem Ext_iff (S : Search) : ∀ (cs : List Nat) (seen : List Row) (h : Row) (d : Nat), Ext S seen h d cs ↔
    (∀ c ∈ cs, c < S.calls.length) ∧ (∀ g ∈ heads S h cs, (S.plan.lookup g).isSome) ∧ (heads S h cs).Pairwise (Apart S) ∧
    (∀ g ∈ heads S h cs, g ∉ seen ∧ leadEnd S g ∉ seen) ∧
    ((S.plan.lookup (last S h cs)).isSome ∧
      (∃ r, (r = last S h cs ∨ r = leadEnd S (last S h cs)) ∧ (r ∈ seen ∨ ∃ g ∈ heads S h cs, r = g ∨ r = leadEnd S g))) ∧
    S.lo ≤ d + length S (heads S h cs) ∧ Row.isrounds (last S h cs) = true ∧
    (cs ≠ [] → d + length S (heads S h cs).dropLast < S.hi) := by
  intro cs
  induction cs with
  | nil =>
    intro seen h d
    simp only [Ext, heads, last, length]
    constructor
    · rintro ⟨a, b, c, e⟩
      refine ⟨by simp, by simp, by simp, by simp, ⟨a, ?_⟩, by simpa using c, e, by simp⟩
      rcases b with b | b
      · exact ⟨_, Or.inl rfl, Or.inl b⟩
      · exact ⟨_, Or.inr rfl, Or.inl b⟩
    · rintro ⟨_, _, _, _, ⟨a, r, hr, b⟩, c, e, _⟩
      refine ⟨a, ?_, by simpa using c, e⟩
      rcases b with b | ⟨g, hg, _⟩
      · rcases hr with rfl | rfl
        · exact Or.inl b
        · exact Or.inr b
      · simp at hg
  | cons c cs ih =>
    intro seen h d
    have hdrop : cs ≠ [] → (heads S h (c :: cs)).dropLast = h :: (heads S (next S h c) cs).dropLast := by
      intro hne
      obtain ⟨b, bs, rfl⟩ := List.exists_cons_of_ne_nil hne
      rfl
    rw [Ext, ih]
    simp only [last, List.pairwise_cons, List.forall_mem_cons, heads, length_cons]
    constructor
    · rintro ⟨h1, h2, h3, h4, h5, h6, h7, h8, ⟨h9, r, hr, h10⟩, h11, h12, h13⟩
      refine ⟨⟨h4, h5⟩, ⟨h1, h6⟩, ⟨?_, h7⟩, ⟨⟨fun x => h2 (Or.inl x), fun x => h2 (Or.inr x)⟩, ?_⟩, ⟨h9, r, hr, ?_⟩, by omega, h12, ?_⟩
      · intro g hg
        have := h8 g hg
        simp only [List.mem_cons, not_or] at this
        exact ⟨this.1.1, this.1.2.1, this.2.1, this.2.2.1⟩
      · intro g hg
        have := h8 g hg
        simp only [List.mem_cons, not_or] at this
        exact ⟨this.1.2.2, this.2.2.2⟩
      · rcases h10 with h10 | ⟨g, hg, h10⟩
        · simp only [List.mem_cons] at h10
          rcases h10 with h10 | h10 | h10
          · exact Or.inr ⟨h, by simp, Or.inl h10⟩
          · exact Or.inr ⟨h, by simp, Or.inr h10⟩
          · exact Or.inl h10
        · exact Or.inr ⟨g, by simp [hg], h10⟩
      · intro _
        by_cases hne : cs = []
        · subst hne; simpa [heads, length] using h3
        · have := h13 hne
          have e := hdrop hne
          simp only [heads] at e
          rw [e, length_cons]; omega
    · rintro ⟨⟨h4, h5⟩, ⟨h1, h6⟩, ⟨h8, h7⟩, ⟨h2, h2'⟩, ⟨h9, r, hr, h10⟩, h11, h12, h13⟩
      have h13 := h13 (by simp)
      refine ⟨h1, ?_, ?_, h4, h5, h6, h7, ?_, ⟨h9, r, hr, ?_⟩, by omega, h12, ?_⟩
      · rintro (x | x)
        · exact h2.1 x
        · exact h2.2 x
      · omega
      · intro g hg
        obtain ⟨a, b, c', e⟩ := h8 g hg
        have := h2' g hg
        simp only [List.mem_cons, not_or]
        exact ⟨⟨a, b, this.1⟩, c', e, this.2⟩
      · rcases h10 with h10 | ⟨g, hg, h10⟩
        · exact Or.inl (by simp [h10])
        · rcases List.mem_cons.1 hg with rfl | hg
          · left
            rcases h10 with rfl | rfl <;> simp
          · exact Or.inr ⟨g, hg, h10⟩
      · intro hne
        have e := hdrop hne
        simp only [heads] at e
        rw [e, length_cons] at h13; omega

theorem length_last (S : Search) (b : Nat) (hl : ∀ r ∈ S.les, r.length = b) (hc : ∀ r ∈ S.calls, r.length = b) :
    ∀ (cs : List Nat) (h : Row), h.length = b → (last S h cs).length = b := by
  have get : ∀ (l : List Row), (∀ r ∈ l, r.length = b) → ∀ i, (l.getD i []).length ≤ b := by
    intro l hl i
    by_cases hi : i < l.length
    · rw [List.getD_eq_getElem?_getD, List.getElem?_eq_getElem hi]
      exact le_of_eq (hl _ (List.getElem_mem hi))
    · rw [List.getD_eq_getElem?_getD, List.getElem?_eq_none (by omega)]; simp
  intro cs
  induction cs with
  | nil => intro h hh; exact hh
  | cons c cs ih =>
    intro h hh
    rw [last]
    apply ih
    have h1 := get S.les hl (methodAt S h)
    have h2 := get S.calls hc c
    have h3 : (leadEnd S h).length = b := by rw [leadEnd, Row.length_mul, hh]; omega
    rw [next, Row.length_mul, h3]; omega

theorem heads_first (S : Search) (h : Row) {cs : List Nat} (hne : cs ≠ []) : h ∈ heads S h cs := by
  obtain ⟨b, bs, rfl⟩ := List.exists_cons_of_ne_nil hne
  simp [heads]

theorem Ext_touch (S : Search) (b : Nat) (hl : ∀ r ∈ S.les, r.length = b) (hc : ∀ r ∈ S.calls, r.length = b) (cs : List Nat) :
    Ext S [] (Row.rounds b) 0 cs ↔ Touch S b cs := by
  have hlen : (last S (Row.rounds b) cs).length = b := length_last S b hl hc cs _ (by simp [Row.rounds])
  rw [Ext_iff]
  constructor
  · rintro ⟨h1, h2, h3, _, ⟨_, r, _, h5⟩, h6, h7, h8⟩
    have hne : cs ≠ [] := by
      rintro rfl
      simp [heads] at h5
    refine ⟨hne, h1, h2, h3, ?_, by simpa using h6, by simpa using h8 hne⟩
    have := Row.isrounds_iff.1 h7
    rw [hlen] at this; exact this
  · intro ⟨hne, h1, h2, h3, h4, h5, h6⟩
    have hf := heads_first S (Row.rounds b) hne
    refine ⟨h1, h2, h3, by simp, ⟨by rw [h4]; exact h2 _ hf, _, Or.inl rfl, Or.inr ⟨_, hf, Or.inl h4⟩⟩, by simpa using h5, ?_,
      fun _ => by simpa using h6⟩
    rw [Row.isrounds_iff, hlen]; exact h4

theorem nodes_inj (S : Search) : ∀ (cs cs' : List Nat) (h : Row), nodes S h cs = nodes S h cs' → cs = cs' := by
  intro cs
  induction cs with
  | nil => intro cs' h e; cases cs' <;> simp [nodes] at e ⊢
  | cons c cs ih =>
    intro cs' h e
    cases cs' with
    | nil => simp [nodes] at e
    | cons c' cs' =>
      simp only [nodes, List.cons.injEq] at e
      have := node_inj e.1
      subst this
      rw [ih _ _ e.2]

end JoinPlan
end Ringing
