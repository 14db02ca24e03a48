import Verif.Lemmas.FalseTable5
import Verif.Lemmas.NamedRows
import Verif.Props.Falseness
/-!
# C67: the symbols of false course heads
-/
namespace Ringing
open Spec
namespace Falseness

/-! ## The table -/

theorem find_insert_self (k : Row) (v : List Char) (t : Table) : Table.find (Table.insert k v t) k = some v := by
  induction t with
  | nil => simp [Table.insert, Table.find]
  | cons e t ih =>
    obtain ⟨x, w⟩ := e
    unfold Table.insert
    by_cases h1 : Row.lt x k = true
    · have hne : x ≠ k := fun h => by rw [h, Group.rowSTO.irrefl] at h1; cases h1
      rw [if_pos h1]
      unfold Table.find at ih ⊢
      rw [List.find?_cons_of_neg (by simpa using hne)]
      exact ih
    · rw [if_neg h1]
      by_cases h2 : Row.lt k x = true
      · rw [if_pos h2]; simp [Table.find]
      · rw [if_neg h2]
        have : x = k := by
          rcases Group.rowSTO.total x k with h | h | h
          · exact absurd h h1
          · exact h
          · exact absurd h h2
        simp [Table.find, this]

theorem find_insert_ne {k r : Row} (hr : r ≠ k) (v : List Char) (t : Table) :
    Table.find (Table.insert k v t) r = Table.find t r := by
  induction t with
  | nil => simp [Table.insert, Table.find, Ne.symm hr]
  | cons e t ih =>
    obtain ⟨x, w⟩ := e
    unfold Table.insert
    by_cases h1 : Row.lt x k = true
    · rw [if_pos h1]
      unfold Table.find at ih ⊢
      by_cases hx : x = r
      · rw [List.find?_cons_of_pos (by simpa using hx), List.find?_cons_of_pos (by simpa using hx)]
      · rw [List.find?_cons_of_neg (by simpa using hx), List.find?_cons_of_neg (by simpa using hx)]
        exact ih
    · rw [if_neg h1]
      by_cases h2 : Row.lt k x = true
      · rw [if_pos h2]
        unfold Table.find
        rw [List.find?_cons_of_neg (by simpa using Ne.symm hr)]
      · rw [if_neg h2]
        have : x = k := by
          rcases Group.rowSTO.total x k with h | h | h
          · exact absurd h h1
          · exact h
          · exact absurd h h2
        unfold Table.find
        rw [List.find?_cons_of_neg (by simpa [this] using Ne.symm hr),
          List.find?_cons_of_neg (by simpa [this] using Ne.symm hr)]

theorem insert_ne_nil (k : Row) (v : List Char) (t : Table) : Table.insert k v t ≠ [] := by
  cases t with
  | nil => simp [Table.insert]
  | cons e t => unfold Table.insert; split <;> [simp; (split <;> simp)]

theorem insert_keys (k : Row) (v : List Char) (t : Table) (n : Nat) (hk : k.length = n) (ht : ∀ e ∈ t, e.1.length = n) :
    ∀ e ∈ Table.insert k v t, e.1.length = n := by
  induction t with
  | nil => intro e he; simp [Table.insert] at he; rw [he]; exact hk
  | cons x t ih =>
    obtain ⟨x, w⟩ := x
    intro e he
    have hx : x.length = n := ht (x, w) List.mem_cons_self
    have ht' : ∀ e ∈ t, e.1.length = n := fun e h => ht e (List.mem_cons_of_mem _ h)
    unfold Table.insert at he
    split at he
    · rcases List.mem_cons.1 he with rfl | he
      · exact hx
      · exact ih ht' e he
    · split at he
      · rcases List.mem_cons.1 he with rfl | he
        · exact hk
        · exact ht e he
      · rcases List.mem_cons.1 he with rfl | he
        · exact hx
        · exact ht' e he

/-- The key of an entry. -/
def keyOf (b : Nat) (h : Nat × Nat) : Row := Row.mul (Row.rounds b) (decode 6 h.1)

theorem valid_head {h : Nat × Nat} (hh : h ∈ heads) : Row.Valid (decode 6 h.1) := by
  have := valid_ext (b := 6) (by omega) (by omega) hh
  have e : ext 6 h.1 = decode 6 h.1 := by
    apply Row.ext_fn (by rw [length_ext, length_decode])
    intro i hi
    rw [length_ext] at hi
    rw [fn_ext (by omega), if_pos hi, fn_decode hi]
  rwa [e] at this

theorem length_keyOf (b : Nat) (h : Nat × Nat) : (keyOf b h).length = max b 6 := by
  simp [keyOf, Row.mul, length_decode]

theorem keyOf_ext {b : Nat} (hb : 6 ≤ b) (h : Nat × Nat) : keyOf b h = ext b h.1 := by
  apply Row.ext_fn
  · rw [length_keyOf, length_ext]; omega
  · intro i hi
    rw [keyOf, Row.fn_mul, Row.fn_rounds, fn_ext hb]
    by_cases c : i < 6
    · rw [if_pos c, fn_decode c]
    · rw [if_neg c, Row.fn_of_ge (by rw [length_decode]; omega)]

theorem keyOf_inj {b : Nat} {h h' : Nat × Nat} (hh : h ∈ heads) (hh' : h' ∈ heads) (e : keyOf b h = keyOf b h') :
    h = h' := by
  obtain ⟨-, -, -, en, lk, -⟩ := known_spec heads_ok hh
  obtain ⟨-, -, -, en', lk', -⟩ := known_spec heads_ok hh'
  have h1 : h.1 = h'.1 := by
    rw [← en, ← en']
    refine encode_congr (f := dig h.1) (g := dig h'.1) fun i hi => ?_
    have := congrArg (fun r => Row.fn r i) e
    simp only [keyOf, Row.fn_mul, Row.fn_rounds] at this
    rwa [fn_decode hi, fn_decode hi] at this
  ext
  · exact h1
  · rw [← lk, ← lk', h1]

theorem tableLoopC_spec {b : Nat} (hb : b ≤ 256) : ∀ (ps : List (String × String)) (hs : List (Nat × Nat)),
    ps.map (fun p => (Row.ofStringC p.1.toList, p.2.toList)) = hs.map (fun h => (.ok (decode 6 h.1), nameOf h.2)) →
    (∀ h ∈ hs, h ∈ heads) → ∀ t, (∀ e ∈ t, e.1.length = max b 6) → ∃ t', tableLoopC b ps t = .ok t' ∧
      (∀ e ∈ t', e.1.length = max b 6) ∧ (ps ≠ [] ∨ t ≠ [] → t' ≠ []) ∧
      ∀ r s, Table.find t' r = some s ↔ (∃ h ∈ hs, r = keyOf b h ∧ s = shortName b (nameOf h.2)) ∨
        Table.find t r = some s ∧ ∀ h ∈ hs, r ≠ keyOf b h := by
  intro ps
  induction ps with
  | nil =>
    intro hs e _ t ht
    have : hs = [] := by cases hs <;> simp_all
    subst this
    exact ⟨t, rfl, ht, by simp, by simp⟩
  | cons p ps ih =>
    intro hs e hm t ht
    obtain ⟨h, hs, rfl⟩ : ∃ h hs', hs = h :: hs' := by cases hs <;> simp_all
    simp only [List.map_cons, List.cons.injEq, Prod.mk.injEq] at e
    obtain ⟨⟨e1, e2⟩, e3⟩ := e
    have hh := hm h List.mem_cons_self
    have hm' : ∀ h ∈ hs, h ∈ heads := fun x hx => hm x (List.mem_cons_of_mem _ hx)
    obtain ⟨t', q1, q2, q3, q4⟩ := ih hs e3 hm' (Table.insert (keyOf b h) (shortName b (nameOf h.2)) t)
      (insert_keys _ _ _ _ (length_keyOf b h) ht)
    refine ⟨t', ?_, q2, fun _ => q3 (Or.inr (insert_ne_nil _ _ _)), fun r s => ?_⟩
    · unfold tableLoopC
      rw [e1, Out.ok_bind, Row.roundsC_eq hb, Row.mulC_eq (Row.valid_rounds hb) (valid_head hh), Out.ok_bind, e2]
      exact q1
    · rw [q4]
      by_cases c : r = keyOf b h
      · rw [c, find_insert_self]
        constructor
        · rintro (⟨x, hx, h1, h2⟩ | ⟨h1, -⟩)
          · exact Or.inl ⟨x, List.mem_cons_of_mem _ hx, h1, h2⟩
          · exact Or.inl ⟨h, List.mem_cons_self, rfl, (Option.some.inj h1).symm⟩
        · rintro (⟨x, hx, h1, h2⟩ | ⟨-, h1⟩)
          · have := keyOf_inj hh (hm x hx) h1
            subst this
            by_cases c2 : ∃ y ∈ hs, keyOf b h = keyOf b y
            · obtain ⟨y, hy, hk⟩ := c2
              have := keyOf_inj hh (hm' y hy) hk
              exact Or.inl ⟨y, hy, hk, by rw [h2, this]⟩
            · push Not at c2
              exact Or.inr ⟨by rw [h2], c2⟩
          · exact absurd rfl (h1 h List.mem_cons_self)
      · rw [find_insert_ne c]
        constructor
        · rintro (⟨x, hx, h1, h2⟩ | ⟨h1, h2⟩)
          · exact Or.inl ⟨x, List.mem_cons_of_mem _ hx, h1, h2⟩
          · refine Or.inr ⟨h1, fun x hx => ?_⟩
            rcases List.mem_cons.1 hx with rfl | hx
            · exact c
            · exact h2 x hx
        · rintro (⟨x, hx, h1, h2⟩ | ⟨h1, h2⟩)
          · rcases List.mem_cons.1 hx with rfl | hx
            · exact absurd h1 c
            · exact Or.inl ⟨x, hx, h1, h2⟩
          · exact Or.inr ⟨h1, fun x hx => h2 x (List.mem_cons_of_mem _ hx)⟩

/-- The table that is made without the cache. -/
theorem makeTable_none {b : Nat} (hb : b ≤ 256) : ∃ t, makeTableC none b = .ok t ∧ (∀ e ∈ t, e.1.length = max b 6) ∧
    t ≠ [] ∧ ∀ r s, Table.find t r = some s ↔ ∃ h ∈ heads, r = keyOf b h ∧ s = shortName b (nameOf h.2) := by
  obtain ⟨t, h1, h2, h3, h4⟩ := tableLoopC_spec hb initData heads parsed_rows (fun _ h => h) [] (by simp)
  exact ⟨t, h1, h2, h3 (Or.inl (by decide)), fun r s => by rw [h4]; simp [Table.find]⟩

/-! ## The cache -/

/-- The values of the cache that a program can reach. -/
inductive Cached : Option Table → Prop
  | none : Cached none
  | optimise {c c' b} : Cached c → b ≤ 256 → optimiseC c b = .ok c' → Cached c'

theorem tableLoopC_six {b : Nat} (hb : b < 6) : ∀ (ps : List (String × String)) (hs : List (Nat × Nat)),
    ps.map (fun p => (Row.ofStringC p.1.toList, p.2.toList)) = hs.map (fun h => (.ok (decode 6 h.1), nameOf h.2)) →
    (∀ h ∈ hs, h ∈ heads) → ∀ t, tableLoopC b ps t = tableLoopC 6 ps t := by
  intro ps
  induction ps with
  | nil => intros; rfl
  | cons p ps ih =>
    intro hs e hm t
    obtain ⟨h, hs, rfl⟩ : ∃ h hs', hs = h :: hs' := by cases hs <;> simp_all
    simp only [List.map_cons, List.cons.injEq, Prod.mk.injEq] at e
    obtain ⟨⟨e1, e2⟩, e3⟩ := e
    have hh := hm h List.mem_cons_self
    have hk : keyOf b h = keyOf 6 h := by
      apply Row.ext_fn
      · rw [length_keyOf, length_keyOf]; omega
      · intro i _; rw [keyOf, keyOf, Row.fn_mul, Row.fn_mul, Row.fn_rounds, Row.fn_rounds]
    unfold keyOf at hk
    unfold tableLoopC
    rw [e1, Out.ok_bind, Out.ok_bind, Row.roundsC_eq (by omega), Row.roundsC_eq (by omega),
      Row.mulC_eq (Row.valid_rounds (by omega)) (valid_head hh), Row.mulC_eq (Row.valid_rounds (by omega)) (valid_head hh),
      Out.ok_bind, Out.ok_bind, hk, shortName_big (by omega) (by omega), shortName_big (by omega) (by omega)]
    exact ih hs e3 (fun x hx => hm x (List.mem_cons_of_mem _ hx)) _

/-- C67: the cache makes no difference: whatever calls of `optimise` were made, the table is the one that is made
without it. -/
theorem makeTable_cached {c : Option Table} (hc : Cached c) {b : Nat} (hb : b ≤ 256) :
    makeTableC c b = makeTableC none b := by
  have inv : c = none ∨ ∃ b' t, b' ≤ 256 ∧ c = some t ∧ makeTableC none b' = .ok t := by
    induction hc with
    | none => exact Or.inl rfl
    | @optimise c c' b0 _ hb0 he ih =>
      unfold optimiseC at he
      split at he
      · injection he with he; exact Or.inl he.symm
      · have : makeTableC c b0 = makeTableC none b0 ∨ ∃ b' t, b' ≤ 256 ∧ makeTableC c b0 = .ok t ∧ makeTableC none b' = .ok t := by
          rcases ih with rfl | ⟨b', t, hb', rfl, ht⟩
          · exact Or.inl rfl
          · rcases t with _ | ⟨⟨k, v⟩, t⟩
            · exact Or.inl rfl
            · unfold makeTableC
              simp only
              split
              · exact Or.inr ⟨b', _, hb', rfl, ht⟩
              · exact Or.inl rfl
        rcases this with h | ⟨b', t, hb', h1, h2⟩
        · obtain ⟨t, ht, -⟩ := makeTable_none hb0
          rw [h, ht, Out.ok_bind] at he
          injection he with he
          exact Or.inr ⟨b0, t, hb0, he.symm, ht⟩
        · rw [h1, Out.ok_bind] at he
          injection he with he
          exact Or.inr ⟨b', t, hb', he.symm, h2⟩
  rcases inv with rfl | ⟨b', t, hb', rfl, ht⟩
  · rfl
  · rcases t with _ | ⟨⟨k, v⟩, t⟩
    · rfl
    · obtain ⟨t', h1, h2, -⟩ := makeTable_none hb'
      rw [ht] at h1
      injection h1 with h1
      rw [← h1] at h2
      have hk : k.length = max b' 6 := h2 (k, v) List.mem_cons_self
      have e0 : makeTableC (some ((k, v) :: t)) b =
          if k.length = b then .ok ((k, v) :: t) else tableLoopC b initData [] := rfl
      rw [e0]
      by_cases c : k.length = b
      · rw [if_pos c, ← ht]
        by_cases c6 : b' < 6
        · have : b = 6 := by omega
          rw [this]
          exact tableLoopC_six c6 initData heads parsed_rows (fun _ h => h) []
        · rw [show b = b' by omega]
      · rw [if_neg c]; rfl

/-- C67: `optimise` makes no difference to `symbols` and `lookup_symbol`. -/
theorem C67_cache {c : Option Table} (hc : Cached c) :
    (∀ t flags lh, lh.length ≤ 256 → symbolsC c t flags lh = symbolsC none t flags lh) ∧
    (∀ r : Row, r.length ≤ 256 → lookupSymbolC c r = lookupSymbolC none r) := by
  constructor
  · intro t flags lh hl
    unfold symbolsC
    simp only [makeTable_cached hc hl]
  · intro r hr
    unfold lookupSymbolC
    rw [makeTable_cached hc hr]

/-- The calls of `optimise` succeed, so that such caches exist. -/
theorem C67_optimise {c : Option Table} (hc : Cached c) {b : Nat} (hb : b ≤ 256) :
    ∃ c', optimiseC c b = .ok c' ∧ (c' = none ↔ b = 0) := by
  unfold optimiseC
  by_cases h : b = 0
  · exact ⟨none, by rw [if_pos h], by simp [h]⟩
  · obtain ⟨t, ht, -⟩ := makeTable_none hb
    exact ⟨some t, by rw [if_neg h, makeTable_cached hc hb, ht]; rfl, by simp [h]⟩

/-! ## One symbol -/

theorem nameOf_ne (c : Nat) : nameOf c ≠ [] := by unfold nameOf; split <;> simp

theorem shortName_ne {b : Nat} {s : List Char} (h : s ≠ []) : shortName b s ≠ [] := by
  unfold shortName
  split
  · cases s with
    | nil => exact absurd rfl h
    | cons a s => simp
  · split
    · decide
    · exact h

theorem Named.ne_nil {b : Nat} {r : Row} {s : List Char} (h : Named b r s) : s ≠ [] := by
  rcases h with ⟨h, -, -, rfl⟩ | ⟨-, h⟩
  · exact shortName_ne (nameOf_ne _)
  · unfold xyz at h
    simp only [List.mem_cons, List.not_mem_nil, or_false, Prod.mk.injEq] at h
    rcases h with ⟨-, rfl⟩ | ⟨-, rfl⟩ | ⟨-, rfl⟩ <;> decide

theorem xyz_rows : (Row.ofStringC "17623548".toList >>= fun x => Row.mulC (Row.roundsC 8) x) = .ok [0, 6, 5, 1, 2, 4, 3, 7] ∧
    (Row.ofStringC "17645328".toList >>= fun x => Row.mulC (Row.roundsC 8) x) = .ok [0, 6, 5, 3, 4, 2, 1, 7] ∧
    (Row.ofStringC "17632458".toList >>= fun x => Row.mulC (Row.roundsC 8) x) = .ok [0, 6, 5, 2, 1, 3, 4, 7] := by
  decide +kernel

theorem lookupOneC_spec {b : Nat} (hb : 8 ≤ b) (hb' : b ≤ 256) {t : Table} (ht : makeTableC none b = .ok t) {r : Row}
    (hl : r.length = b) : (∃ s, Named b r s ∧ lookupOneC t b r = .ok s) ∨
      ((∀ s, ¬ Named b r s) ∧ lookupOneC t b r = .ok []) := by
  obtain ⟨t', h1, -, -, h4⟩ := makeTable_none hb'
  rw [ht] at h1
  injection h1 with h1
  subst h1
  unfold lookupOneC
  by_cases c : tenorsTogether r = true
  · rw [if_pos c]
    cases hf : Table.find t r with
    | none =>
      right
      refine ⟨?_, rfl⟩
      rintro s (⟨h, hh, e1, e2⟩ | ⟨h8, h⟩)
      · have := (h4 r s).2 ⟨h, hh, by rw [keyOf_ext (by omega)]; exact e1, e2⟩
        rw [hf] at this; cases this
      · exfalso
        unfold xyz at h
        simp only [List.mem_cons, List.not_mem_nil, or_false, Prod.mk.injEq] at h
        rcases h with ⟨rfl, -⟩ | ⟨rfl, -⟩ | ⟨rfl, -⟩ <;> exact absurd c (by decide)
    | some s =>
      left
      obtain ⟨h, hh, e1, e2⟩ := (h4 r s).1 hf
      refine ⟨s, Or.inl ⟨h, hh, by rw [← keyOf_ext (by omega)]; exact e1, e2⟩, ?_⟩
      simp only
      rw [if_neg]
      rintro ⟨h8, hs⟩
      apply hs
      rw [e2, h8]
      unfold shortName
      rw [if_pos rfl, List.length_take]
      have := List.length_pos_iff.2 (nameOf_ne h.2)
      omega
  · rw [if_neg c]
    have hnot : ∀ h ∈ heads, r ≠ ext b h.1 := by
      rintro h - rfl
      apply c
      rw [tenorsTogether_iff]
      intro i hi
      rw [fn_ext (by omega), if_neg (by omega)]
    by_cases h8 : b = 8
    · rw [if_pos h8, h8]
      obtain ⟨x1, x2, x3⟩ := xyz_rows
      simp only [← Out.bind_assoc', x1, x2, x3, Out.ok_bind]
      have nm : ∀ s, Named 8 r s ↔ (r, s) ∈ xyz := by
        intro s
        constructor
        · rintro (⟨h, hh, e, -⟩ | ⟨-, h⟩)
          · exact absurd e (by rw [← h8]; exact hnot h hh)
          · exact h
        · intro h; exact Or.inr ⟨rfl, h⟩
      simp only [nm]
      by_cases c1 : r = [0, 6, 5, 1, 2, 4, 3, 7]
      · left; exact ⟨"X".toList, by rw [c1]; decide, by rw [if_pos c1]⟩
      · rw [if_neg c1]
        by_cases c2 : r = [0, 6, 5, 3, 4, 2, 1, 7]
        · left; exact ⟨"Y".toList, by rw [c2]; decide, by rw [if_pos c2]⟩
        · rw [if_neg c2]
          by_cases c3 : r = [0, 6, 5, 2, 1, 3, 4, 7]
          · left; exact ⟨"Z".toList, by rw [c3]; decide, by rw [if_pos c3]⟩
          · right
            refine ⟨fun s h => ?_, by rw [if_neg c3]⟩
            unfold xyz at h
            simp only [List.mem_cons, List.not_mem_nil, or_false, Prod.mk.injEq] at h
            rcases h with ⟨h, -⟩ | ⟨h, -⟩ | ⟨h, -⟩
            · exact c1 h
            · exact c2 h
            · exact c3 h
    · rw [if_neg h8]
      right
      refine ⟨?_, rfl⟩
      rintro s (⟨h, hh, e, -⟩ | ⟨h, -⟩)
      · exact hnot h hh e
      · exact h8 h

/-- Every row with the treble and the bells from the seventh on in their places is in the table. -/
theorem together_named {b : Nat} (hb : 8 ≤ b) {r : Row} (hr : Row.Valid r) (hl : r.length = b) (h0 : Row.fn r 0 = 0)
    (ht : ∀ i, 6 ≤ i → Row.fn r i = i) : ∃ s, Named b r s := by
  have hlt : ∀ i, i < 6 → Row.fn r i < 6 := by
    intro i hi
    by_contra h
    have := ht (Row.fn r i) (by omega)
    have := hr.fn_inj this
    omega
  have hp : ((List.range 6).map (Row.fn r)).Perm (List.range 6) := by
    apply List.Perm.symm
    have hnd : ((List.range 6).map (Row.fn r)).Nodup := by
      rw [List.nodup_map_iff_inj_on List.nodup_range]
      intro i _ j _ e; exact hr.fn_inj e
    have hsub : ((List.range 6).map (Row.fn r)) ⊆ List.range 6 := by
      intro x hx
      obtain ⟨i, hi, rfl⟩ := List.mem_map.1 hx
      rw [List.mem_range] at hi ⊢
      exact hlt i hi
    exact ((hnd.subperm hsub).perm_of_length_le (by simp)).symm
  have e0 : (List.range 6).map (Row.fn r) = 0 :: [1, 2, 3, 4, 5].map (Row.fn r) := by
    rw [show List.range 6 = [0, 1, 2, 3, 4, 5] from rfl, List.map_cons, h0]
  rw [e0] at hp
  have hp' : ([1, 2, 3, 4, 5].map (Row.fn r)).Perm [1, 2, 3, 4, 5] :=
    (hp.trans (show (List.range 6).Perm (0 :: [1, 2, 3, 4, 5]) by decide)).cons_inv
  have ck := allB_iff.1 heads_all _ (List.mem_permutations'.2 hp')
  simp only [Bool.not_eq_true', beq_false_iff] at ck
  have mem := lookB_mem ck
  refine ⟨_, Or.inl ⟨_, mem, ?_, rfl⟩⟩
  apply Row.ext_fn
  · rw [hl, length_ext]
  · intro i _
    rw [fn_ext (by omega)]
    by_cases c : i < 6
    · have hi : ∀ j, j < 6 → nthB (0 :: [1, 2, 3, 4, 5].map (Row.fn r)) j = Row.fn r j := by
        intro j hj
        rw [← e0, nthB_eq (by simpa using hj)]
        exact Row.fn_map_range hj
      rw [if_pos c, dig_encode (fun j hj => by rw [hi j hj]; have := hlt j hj; omega) c, hi i c]
    · rw [if_neg c, ht i (by omega)]

/-! ## Any symbol -/

theorem lookupInnerC_spec {b : Nat} (hb : 8 ≤ b) (hb' : b ≤ 256) {t : Table} (ht : makeTableC none b = .ok t) {r i : Row}
    (hr : Row.Valid r) (hl : r.length = b) (hi : Row.Valid i) (hil : i.length = b) : ∀ js : List Row,
    (∀ j ∈ js, Row.Valid j ∧ j.length = b) → ∃ s, lookupInnerC t b r i js = .ok s ∧
      (s ≠ [] → ∃ j ∈ js, Named b (Row.mul (Row.mul i r) j) s ∨ Named b (Row.inverse (Row.mul (Row.mul i r) j)) s) ∧
      (s = [] → ∀ j ∈ js, ∀ s', ¬ Named b (Row.mul (Row.mul i r) j) s' ∧
        ¬ Named b (Row.inverse (Row.mul (Row.mul i r) j)) s') := by
  intro js
  induction js with
  | nil => intro _; exact ⟨[], rfl, by simp, by simp⟩
  | cons j js ih =>
    intro hj
    obtain ⟨vj, lj⟩ := hj j List.mem_cons_self
    have vm := Row.valid_mul hi hr
    have vf := Row.valid_mul vm vj
    have lf : (Row.mul (Row.mul i r) j).length = b := by simp [Row.mul, hl, hil, lj]
    have li : (Row.inverse (Row.mul (Row.mul i r) j)).length = b := by rw [Row.length_inverse, lf]
    obtain ⟨s, h1, h2, h3⟩ := ih fun j h => hj j (List.mem_cons_of_mem _ h)
    unfold lookupInnerC
    rw [Row.mulC_eq hi hr, Out.ok_bind, Row.mulC_eq vm vj, Out.ok_bind]
    rcases lookupOneC_spec hb hb' ht lf with ⟨s1, n1, e1⟩ | ⟨n1, e1⟩
    · rw [e1, Out.ok_bind, if_pos n1.ne_nil]
      exact ⟨s1, rfl, fun _ => ⟨j, List.mem_cons_self, Or.inl n1⟩, fun h => absurd h n1.ne_nil⟩
    · rw [e1, Out.ok_bind, if_neg (by simp), Row.inverseC_eq vf, Out.ok_bind]
      rcases lookupOneC_spec hb hb' ht li with ⟨s2, n2, e2⟩ | ⟨n2, e2⟩
      · rw [e2, Out.ok_bind, if_pos n2.ne_nil]
        exact ⟨s2, rfl, fun _ => ⟨j, List.mem_cons_self, Or.inr n2⟩, fun h => absurd h n2.ne_nil⟩
      · rw [e2, Out.ok_bind, if_neg (by simp)]
        refine ⟨s, h1, fun h => ?_, fun h => ?_⟩
        · obtain ⟨j', hj', hh⟩ := h2 h
          exact ⟨j', List.mem_cons_of_mem _ hj', hh⟩
        · intro j' hj' s'
          rcases List.mem_cons.1 hj' with rfl | hj'
          · exact ⟨n1 s', n2 s'⟩
          · exact h3 h j' hj' s'

theorem lookupOuterC_spec {b : Nat} (hb : 8 ≤ b) (hb' : b ≤ 256) {t : Table} (ht : makeTableC none b = .ok t) {r : Row}
    (hr : Row.Valid r) (hl : r.length = b) {g : List Row} (hg : ∀ j ∈ g, Row.Valid j ∧ j.length = b) : ∀ is : List Row,
    (∀ i ∈ is, Row.Valid i ∧ i.length = b) → ∃ s, lookupOuterC t b r g is = .ok s ∧
      (s ≠ [] → ∃ i ∈ is, ∃ j ∈ g, Named b (Row.mul (Row.mul i r) j) s ∨
        Named b (Row.inverse (Row.mul (Row.mul i r) j)) s) ∧
      (s = [] → ∀ i ∈ is, ∀ j ∈ g, ∀ s', ¬ Named b (Row.mul (Row.mul i r) j) s' ∧
        ¬ Named b (Row.inverse (Row.mul (Row.mul i r) j)) s') := by
  intro is
  induction is with
  | nil => intro _; exact ⟨[], rfl, by simp, by simp⟩
  | cons i is ih =>
    intro his
    obtain ⟨vi, li⟩ := his i List.mem_cons_self
    obtain ⟨s, h1, h2, h3⟩ := ih fun i h => his i (List.mem_cons_of_mem _ h)
    obtain ⟨s0, q1, q2, q3⟩ := lookupInnerC_spec hb hb' ht hr hl vi li g hg
    unfold lookupOuterC
    rw [q1, Out.ok_bind]
    by_cases c : s0 = []
    · rw [if_neg (by simpa using c)]
      refine ⟨s, h1, fun h => ?_, fun h => ?_⟩
      · obtain ⟨i', hi', hh⟩ := h2 h
        exact ⟨i', List.mem_cons_of_mem _ hi', hh⟩
      · intro i' hi'
        rcases List.mem_cons.1 hi' with rfl | hi'
        · exact q3 c
        · exact h3 h i' hi'
    · rw [if_pos c]
      exact ⟨s0, rfl, fun _ => ⟨i, List.mem_cons_self, q2 c⟩, fun h => absurd h c⟩

theorem pblhC_first {b : Nat} (he : b % 2 = 0) (hb : 8 ≤ b) (hb' : b ≤ 255) : Row.pblhC b 1 = .ok (firstLeadHead b) := by
  rw [Row.pblhC_eq hb']
  congr 1
  unfold firstLeadHead
  apply List.map_congr_left
  intro i hi
  rw [List.mem_range] at hi
  unfold Row.huntIndex
  split_ifs <;> omega

theorem seconds_change {b : Nat} (hb : 8 ≤ b) (hb' : b ≤ 255) :
    Change.ofStringC b "12".toList = .ok ⟨b, Change.swapsBetween 256 2 b⟩ := by
  have h1 : Bell.readExtended ['1', '2'] = .ok (0, ['2']) := by decide
  have h2 : Bell.readExtended ['2'] = .ok (1, []) := by decide
  have e : toBell b = b := by unfold toBell; omega
  show Change.ofStringC b ['1', '2'] = _
  unfold Change.ofStringC
  rw [if_neg (by decide), if_neg (by decide)]
  show Change.ofStringLoop b 2 ['1', '2'] 0 [] = _
  unfold Change.ofStringLoop
  rw [h1]
  simp only [Out.ok_bind]
  rw [if_neg (by omega)]
  unfold Change.ofStringLoop
  rw [h2]
  simp only [Out.ok_bind]
  rw [if_neg (by omega)]
  unfold Change.ofStringLoop
  have z0 : Change.swapsBetween 256 0 0 = [] := by decide
  have z1 : Change.swapsBetween 256 1 1 = [] := by decide
  rw [e]
  show Out.ok (⟨b, [] ++ Change.swapsBetween 256 0 0 ++ Change.swapsBetween 256 1 1 ++ Change.swapsBetween 256 2 b⟩ : Change) = _
  rw [z0, z1]
  rfl

theorem seconds_row {b : Nat} (he : b % 2 = 0) (hb : 8 ≤ b) (hb' : b ≤ 255) :
    Row.applyC [] ⟨b, Change.swapsBetween 256 2 b⟩ = .ok (seconds b) := by
  have w : (⟨b, Change.swapsBetween 256 2 b⟩ : Change).WF :=
    ⟨hb', (Change.gap_swapsBetween _ _ _).1, fun s hs => ((Change.gap_swapsBetween _ _ _).2 s hs).2⟩
  rw [Row.applyC_eq w]
  congr 1
  apply Row.ext_fn
  · rw [Row.length_apply]; simp [seconds]
  · intro i hi
    rw [Row.length_apply] at hi
    rw [Row.fn_apply w, Row.fn_of_ge (by simp), seconds, Row.fn_map_range (by simpa using hi)]
    simp only [List.length_nil, Nat.zero_max] at hi
    rw [Change.WF.pos_eq w]
    have hm := fun x => Change.mem_swapsBetween (fuel := 256) (s := 2) (te := b) (by omega) x
    unfold moveTo
    simp only [hm]
    split_ifs <;> omega

theorem sameGroup_moved {b : Nat} {r i j : Row} (hr : Row.Valid r) (vi : Row.Valid i) (vj : Row.Valid j)
    (hi : permOf i ∈ PlainBob b) (hj : permOf j ∈ PlainBob b) :
    SameGroup b (Row.mul (Row.mul i r) j) r ∧ SameGroup b (Row.inverse (Row.mul (Row.mul i r) j)) r := by
  have e := permOf_mul (Row.valid_mul vi hr) vj
  rw [permOf_mul vi hr] at e
  have vf := Row.valid_mul (Row.valid_mul vi hr) vj
  refine ⟨⟨_, inv_mem hi, _, inv_mem hj, Or.inl ?_⟩, ⟨_, inv_mem hi, _, inv_mem hj, Or.inr ?_⟩⟩
  · rw [e]; group
  · rw [permOf_inverse vf, e]; group

/-- C67: on an even number of bells from 8, `lookup_symbol` finds the symbol of any row that has one, and the empty
string for any other row; on eight bells every row with the treble in its place has one, so that the assertion holds. -/
theorem C67_lookup {c : Option Table} (hc : Cached c) {b : Nat} (he : b % 2 = 0) (hb : 8 ≤ b) (hb' : b ≤ 255) {r : Row}
    (hr : IsRow r) (hl : r.length = b) :
    ∃ s, lookupSymbolC c r = .ok s ∧ (s ≠ [] → HasSymbol b s r) ∧ (∀ s', HasSymbol b s' r → s' = s) ∧
      (b = 8 → bellAt r 0 = 0 → s ≠ []) := by
  have hv := (isRow_iff_valid _).1 hr
  have h256 : b ≤ 256 := by omega
  obtain ⟨t, ht, -⟩ := makeTable_none h256
  obtain ⟨g, g1, g2, g3⟩ := Group.C31_two ((isRow_iff_valid _).2 (valid_firstLeadHead he (by omega) h256))
    ((isRow_iff_valid _).2 (valid_seconds he h256))
  have gb : g.b = b := by rw [g2]; simp [firstLeadHead, seconds]
  rw [gb] at g3
  have hg : ∀ j ∈ g.v, Row.Valid j ∧ j.length = b ∧ permOf j ∈ PlainBob b := fun j hj => by
    obtain ⟨q1, q2, q3⟩ := (g3.mem j).1 hj
    exact ⟨(isRow_iff_valid _).1 q1, q2, q3⟩
  have hg' : ∀ j ∈ g.v, Row.Valid j ∧ j.length = b := fun j hj => ⟨(hg j hj).1, (hg j hj).2.1⟩
  obtain ⟨s, h1, h2, h3⟩ := lookupOuterC_spec hb h256 ht hv hl hg' g.v hg'
  have sound : s ≠ [] → HasSymbol b s r := by
    intro hs
    obtain ⟨i, hi, j, hj, h⟩ := h2 hs
    obtain ⟨m1, m2⟩ := sameGroup_moved (b := b) hv (hg i hi).1 (hg j hj).1 (hg i hi).2.2 (hg j hj).2.2
    rcases h with h | h
    · obtain ⟨x, hx, e, hh⟩ := h.hasSymbol he hb h256
      exact ⟨x, hx, e, hh.trans m1⟩
    · obtain ⟨x, hx, e, hh⟩ := h.hasSymbol he hb h256
      exact ⟨x, hx, e, hh.trans m2⟩
  have found : ∀ r' s', Named b r' s' → SameGroup b r' r → s ≠ [] := by
    intro r' s' hn hs hs0
    obtain ⟨vr', lr'⟩ := hn.valid hb h256
    obtain ⟨d, hd, e, hee, hx⟩ := hs
    obtain ⟨i, hi, pi⟩ := g3.all _ (inv_mem hd)
    obtain ⟨j, hj, pj⟩ := g3.all _ (inv_mem hee)
    have vi := (hg i hi).1
    have vj := (hg j hj).1
    have vf := Row.valid_mul (Row.valid_mul vi hv) vj
    have lf : (Row.mul (Row.mul i r) j).length = b := by
      simp [Row.mul, hl, (hg i hi).2.1, (hg j hj).2.1]
    have ef : permOf (Row.mul (Row.mul i r) j) = d⁻¹ * permOf r * e⁻¹ := by
      rw [permOf_mul (Row.valid_mul vi hv) vj, permOf_mul vi hv, pi, pj]
    obtain ⟨n1, n2⟩ := h3 hs0 i hi j hj s'
    rcases hx with hx | hx
    · apply n1
      have : r' = Row.mul (Row.mul i r) j := by
        apply permOf_inj vr' vf (by rw [lr', lf])
        rw [ef, hx]; group
      rwa [← this]
    · apply n2
      have : r' = Row.inverse (Row.mul (Row.mul i r) j) := by
        apply permOf_inj vr' (Row.valid_inverse vf) (by rw [lr', Row.length_inverse, lf])
        rw [permOf_inverse vf, ef, hx]; group
      rwa [← this]
  have ne8 : b = 8 → bellAt r 0 = 0 → s ≠ [] := by
    intro h8 h0
    rw [bellAt_eq_fn] at h0
    obtain ⟨r', s', k1, k2⟩ := eight_named hv (hl.trans h8) h0
    rw [← h8] at k1 k2
    exact found r' s' k1 k2
  refine ⟨s, ?_, sound, ?_, ne8⟩
  · rw [(C67_cache hc).2 r (by omega)]
    unfold lookupSymbolC
    rw [hl, ht, Out.ok_bind]
    simp only
    rw [pblhC_first he hb hb', Out.ok_bind, seconds_change hb hb', Out.ok_bind, seconds_row he hb hb', Out.ok_bind, g1,
      Out.ok_bind, h1, Out.ok_bind]
    by_cases c : s = []
    · rw [if_neg (by simpa using c), if_neg, c]
      rintro ⟨h8, h0⟩
      refine ne8 h8 ?_ c
      rw [bellAt_eq_fn, Row.fn]
      exact h0
    · rw [if_pos c]
  · intro s' hs'
    have : s ≠ [] := by
      obtain ⟨x, hx, -, hh⟩ := hs'
      exact found _ _ (groups_named hb hx) hh
    exact hasSymbol_unique he hb h256 hs' (sound this)

/-- C67: every row on an even number of bells from 8 with the treble and the bells from the seventh on in their places
has a symbol. -/
theorem C67_together {c : Option Table} (hc : Cached c) {b : Nat} (he : b % 2 = 0) (hb : 8 ≤ b) (hb' : b ≤ 255) {r : Row}
    (hr : IsRow r) (hl : r.length = b) (h0 : bellAt r 0 = 0) (ht : ∀ i, 6 ≤ i → bellAt r i = i) :
    ∃ s, lookupSymbolC c r = .ok s ∧ s ≠ [] ∧ HasSymbol b s r := by
  obtain ⟨s, h1, h2, h3, -⟩ := C67_lookup hc he hb hb' hr hl
  obtain ⟨s', hn⟩ := together_named hb ((isRow_iff_valid _).1 hr) hl (by rw [← bellAt_eq_fn]; exact h0)
    (fun i hi => by rw [← bellAt_eq_fn]; exact ht i hi)
  have hs := h3 s' (hn.hasSymbol he hb (by omega))
  exact ⟨s', by rw [hs]; exact h1, hn.ne_nil, hn.hasSymbol he hb (by omega)⟩

/-- C67: two rows with symbols have the same symbol if and only if they are in the same group. -/
theorem C67_same {c c' : Option Table} (hc : Cached c) (hc' : Cached c') {b : Nat} (he : b % 2 = 0) (hb : 8 ≤ b)
    (hb' : b ≤ 255) {r r' : Row} (hr : IsRow r) (hl : r.length = b) (hr' : IsRow r') (hl' : r'.length = b) {s s' : List Char}
    (hs : lookupSymbolC c r = .ok s) (hs' : lookupSymbolC c' r' = .ok s') (hne : s ≠ []) :
    s = s' ↔ SameGroup b r r' := by
  obtain ⟨q, h1, h2, h3, -⟩ := C67_lookup hc he hb hb' hr hl
  obtain ⟨q', h1', h2', h3', -⟩ := C67_lookup hc' he hb hb' hr' hl'
  rw [hs] at h1
  rw [hs'] at h1'
  injection h1 with h1
  injection h1' with h1'
  subst h1 h1'
  obtain ⟨g, hg, e, k⟩ := h2 hne
  constructor
  · rintro rfl
    obtain ⟨g', hg', e', k'⟩ := h2' hne
    have n1 := groups_named hb hg
    have n2 := groups_named hb hg'
    rw [← e] at n1
    rw [← e'] at n2
    exact (k.symm.trans (n1.group he hb (by omega) n2)).trans k'
  · intro h
    exact h3' s ⟨g, hg, e, k.trans h⟩

/-! ## The symbols of a table -/

theorem strSTO : Group.IsSTO strLt := by
  refine ⟨fun a => Group.rowSTO.irrefl _, fun a b c h1 h2 => Group.rowSTO.trans _ _ _ h1 h2, fun a b => ?_⟩
  rcases Group.rowSTO.total (a.map Char.toNat) (b.map Char.toNat) with h | h | h
  · exact Or.inl h
  · exact Or.inr (Or.inl (List.map_injective_iff.2 (fun x y e => Char.ext (UInt32.toNat_inj.1 e)) h))
  · exact Or.inr (Or.inr h)

theorem symsLoopC_spec {b : Nat} (he : b % 2 = 0) (hb : 8 ≤ b) (hb' : b ≤ 256) {t : Table} (ht : makeTableC none b = .ok t) : ∀ (rs : List Row),
    (∀ r ∈ rs, r.length = b) → ∀ s, Group.Incr strLt s → ∃ ns, symsLoopC t b rs s = .ok ns ∧ Group.Incr strLt ns ∧
      ∀ n, n ∈ ns ↔ n ∈ s ∨ ∃ r ∈ rs, Named b r n := by
  intro rs
  induction rs with
  | nil => intro _ s hs; exact ⟨s, rfl, hs, by simp⟩
  | cons r rs ih =>
    intro hl s hs
    have hl' : ∀ r ∈ rs, r.length = b := fun r h => hl r (List.mem_cons_of_mem _ h)
    unfold symsLoopC
    rcases lookupOneC_spec hb hb' ht (hl r List.mem_cons_self) with ⟨m, n1, e1⟩ | ⟨n1, e1⟩
    · rw [e1, Out.ok_bind, if_neg n1.ne_nil]
      obtain ⟨ns, h1, h2, h3⟩ := ih hl' _ (Group.setInsert_incr strSTO m hs)
      refine ⟨ns, h1, h2, fun n => ?_⟩
      rw [h3, Group.mem_setInsert strSTO]
      simp only [List.exists_mem_cons_iff]
      constructor
      · rintro ((rfl | h) | h)
        · exact Or.inr (Or.inl n1)
        · exact Or.inl h
        · exact Or.inr (Or.inr h)
      · rintro (h | h | h)
        · exact Or.inl (Or.inr h)
        · left; left
          exact Named.same he hb hb' h n1 (SameGroup.refl r)
        · exact Or.inr h
    · rw [e1, Out.ok_bind, if_pos rfl]
      obtain ⟨ns, h1, h2, h3⟩ := ih hl' s hs
      refine ⟨ns, h1, h2, fun n => ?_⟩
      rw [h3]
      simp only [List.exists_mem_cons_iff, n1 n, false_or]

theorem strLt_iff : ∀ a b : List Char, strLt a b = true ↔ a < b := by
  intro a
  induction a with
  | nil => intro b; cases b <;> simp [strLt, Row.lt]
  | cons x a ih =>
    intro b
    cases b with
    | nil => simp [strLt, Row.lt]
    | cons y b =>
      have := ih b
      unfold strLt at this ⊢
      rw [List.map_cons, List.map_cons, Row.lt, List.cons_lt_cons_iff, ← this]
      have h1 : x < y ↔ x.toNat < y.toNat := Iff.rfl
      have h2 : x = y ↔ x.toNat = y.toNat := ⟨congrArg _, fun e => Char.ext (UInt32.toNat_inj.1 e)⟩
      rw [h1, h2]
      by_cases c1 : x.toNat < y.toNat
      · simp [c1]
      · by_cases c2 : y.toNat < x.toNat
        · have : ¬ x.toNat = y.toNat := by omega
          simp [c1, c2, this]
        · have : x.toNat = y.toNat := by omega
          simp [this]

/-- C67: `symbols` on an even number of bells from 8 of an object whose lead head is one of plain bob: the symbols, one
after the other in increasing order and each once, of the rows with the bells from the seventh on in their places and,
on eight bells, of the rows X, Y and Z themselves. -/
theorem C67_symbols {c : Option Table} (hc : Cached c) {t : List Row} {flags : Nat} {lh : Row} {b : Nat} (hl : lh.length = b)
    (he : b % 2 = 0) (hb : 8 ≤ b) (hb' : b ≤ 255) (hf : flags.testBit 1 = true ∨ b = 8) {i : Nat}
    (hi : Row.ispblh0C lh = .ok i) (hi0 : i ≠ 0) (ht : ∀ r ∈ t, IsRow r ∧ r.length = b ∧ bellAt r 0 = 0) :
    ∃ ns : List (List Char), symbolsC c t flags lh = .ok ns.flatten ∧ ns.Pairwise (· < ·) ∧
      ∀ n, n ∈ ns ↔ ∃ r ∈ t, HasSymbol b n r ∧
        ((∀ i, 6 ≤ i → bellAt r i = i) ∨ b = 8 ∧ ∃ g ∈ splitTenors, r = courseHead 8 g.2) := by
  have h256 : b ≤ 256 := by omega
  obtain ⟨tb, htb, -⟩ := makeTable_none h256
  obtain ⟨ns, h1, h2, h3⟩ := symsLoopC_spec he hb h256 htb t (fun r h => (ht r h).2.1) [] (by simp [Group.Incr])
  refine ⟨ns, ?_, ?_, fun n => ?_⟩
  · rw [(C67_cache hc).1 t flags lh (by omega)]
    unfold symbolsC
    rw [hl]
    simp only
    rw [if_neg, if_neg (by omega), hi, Out.ok_bind, if_neg hi0, htb, Out.ok_bind, h1, Out.ok_bind]
    rintro ⟨hx, h8⟩
    rcases hf with hf | hf
    · rw [show has flags TENORS_TOGETHER = flags.testBit 1 from has_pow flags 1] at hx
      rw [hf] at hx; cases hx
    · exact h8 hf
  · exact h2.imp fun h => (strLt_iff _ _).1 h
  · rw [h3]
    simp only [List.not_mem_nil, false_or]
    refine exists_congr fun r => and_congr_right fun hr => ?_
    obtain ⟨r1, r2, r3⟩ := ht r hr
    have hv := (isRow_iff_valid _).1 r1
    constructor
    · intro hn
      refine ⟨hn.hasSymbol he hb h256, ?_⟩
      rcases hn with ⟨h, -, rfl, -⟩ | ⟨h8, h⟩
      · left
        intro i hi
        rw [bellAt_eq_fn, fn_ext (by omega), if_neg (by omega)]
      · right
        refine ⟨h8, ?_⟩
        have : ∀ x ∈ xyz, ∃ g ∈ splitTenors, x.1 = courseHead 8 g.2 := by decide
        exact this _ h
    · rintro ⟨hs, ho⟩
      have hex : ∃ s, Named b r s := by
        rcases ho with ho | ⟨h8, g, hg, rfl⟩
        · exact together_named hb hv r2 (by rw [← bellAt_eq_fn]; exact r3) (fun i hi => by rw [← bellAt_eq_fn]; exact ho i hi)
        · subst h8
          have : ∀ g ∈ splitTenors, ∃ x ∈ xyz, x.1 = courseHead 8 g.2 := by decide
          obtain ⟨x, hx, e⟩ := this g hg
          exact ⟨x.2, Or.inr ⟨rfl, by rw [← e]; exact hx⟩⟩
      obtain ⟨s, hn⟩ := hex
      rw [hasSymbol_unique he hb h256 hs (hn.hasSymbol he hb h256)]
      exact hn

/-- C67: `symbols` throws `logic_error` without the flag on another number of bells than 8, on an odd number of bells,
and for a lead head that is not one of plain bob. -/
theorem C67_errors (c : Option Table) (t : List Row) (flags : Nat) (lh : Row) {i : Nat} (hi : Row.ispblh0C lh = .ok i)
    (h : flags.testBit 1 = false ∧ lh.length ≠ 8 ∨ lh.length % 2 = 1 ∨ i = 0) :
    symbolsC c t flags lh = .throw .logicError := by
  unfold symbolsC
  simp only
  rw [show has flags TENORS_TOGETHER = flags.testBit 1 from has_pow flags 1]
  by_cases h1 : flags.testBit 1 = false ∧ lh.length ≠ 8
  · rw [if_pos h1]
  · rw [if_neg h1]
    by_cases h2 : lh.length % 2 = 1
    · rw [if_pos h2]
    · rw [if_neg h2, hi, Out.ok_bind, if_pos]
      rcases h with h | h | h
      · exact absurd h h1
      · exact absurd h h2
      · exact h

/-- C67: the symbols of the false course heads of a method: with `tenors_together`, a name is listed if and only if
a course head of that group, with the tenors together and, with `in_course_only`, in course, has a course with a row in
common with the plain course. -/
theorem C67_method {c : Option Table} (hc : Cached c) {m : Method} {flags : Nat} (he : m.b % 2 = 0) (h8 : 8 ≤ m.b)
    (hb : m.b ≤ 255) (hm : ∀ c ∈ m.ch, IsChange c.n c.swaps ∧ c.n = m.b) {lh : Row} (hlh : Method.lhC m = .ok lh)
    (h0 : bellAt lh 0 = 0) (hcyc : ∀ i, 0 < i → i < m.b → ∃ k, iter (bellAt lh) k (m.b - 1) = i) {i : Nat}
    (hi : Row.ispblh0C lh = .ok i) (hi0 : i ≠ 0) (hf : flags.testBit 1 = true) :
    ∃ (N : Nat) (t : List Row) (ns : List (List Char)), (∀ fuel, N ≤ fuel → falseCoursesC fuel m flags = .ok t) ∧ symbolsC c t flags lh = .ok ns.flatten ∧
      ns.Pairwise (· < ·) ∧ ∀ n, n ∈ ns ↔ ∃ r, HasSymbol m.b n r ∧ IsRow r ∧ r.length = m.b ∧ bellAt r 0 = 0 ∧
        (∀ i, 6 ≤ i → bellAt r i = i) ∧ (flags.testBit 0 = true → Row.signC r = .ok 1) ∧
        ∃ x, InCourse m (Row.roundsC m.b) x ∧ InCourse m r x := by
  obtain ⟨N, t, h1, -, h3⟩ := C35_courses (flags := flags) (by omega) hb hm hlh h0 hcyc
  have hl : lh.length = m.b := by
    have wm : m.WF := ⟨hb, hm⟩
    rw [wm.lhC_eq] at hlh
    injection hlh with hlh
    exact hlh ▸ wm.lh_length
  obtain ⟨ns, q1, q2, q3⟩ := C67_symbols hc hl he h8 hb (Or.inl hf) hi hi0
    (fun r hr => by obtain ⟨a1, a2, a3, -⟩ := (h3 r).1 hr; exact ⟨a1, a2, a3⟩)
  refine ⟨N, t, ns, h1, q1, q2, fun n => ?_⟩
  rw [q3]
  constructor
  · rintro ⟨r, hr, hs, -⟩
    obtain ⟨a1, a2, a3, a4, a5, a6, a7⟩ := (h3 r).1 hr
    exact ⟨r, hs, a1, a2, a3, a6 hf, a5, a7⟩
  · rintro ⟨r, hs, a1, a2, a3, a4, a5, a6⟩
    exact ⟨r, (h3 r).2 ⟨a1, a2, a3, a4 _ (by omega), a5, fun _ => a4, a6⟩, hs, Or.inl a4⟩

/-! ## Concrete cases -/

set_option maxRecDepth 100000 in
/-- 12435678 is in group D on eight bells. -/
example : lookupSymbolC none [0, 1, 3, 2, 4, 5, 6, 7] = .ok "D".toList := by decide +kernel

set_option maxRecDepth 100000 in
/-- Two rows with the symbols of the groups B and D, and one with the tenors apart that is not X, Y or Z. -/
example : symbolsC none [[0, 1, 3, 2, 4, 5, 6, 7], [0, 1, 3, 2, 5, 4, 6, 7], [0, 6, 5, 4, 3, 2, 1, 7]] 0
    [0, 2, 4, 1, 6, 3, 7, 5] = .ok "BD".toList ∧ Row.ispblh0C [0, 2, 4, 1, 6, 3, 7, 5] = .ok 1 := by decide +kernel

set_option maxRecDepth 100000 in
/-- C67 (finding): without `tenors_together` a row with the tenors apart that has a symbol is left out of `symbols`
unless it is one of the three rows of the table. -/
theorem C67_split_finding : lookupSymbolC none [0, 6, 5, 4, 3, 2, 1, 7] = .ok "c".toList ∧
    symbolsC none [[0, 6, 5, 4, 3, 2, 1, 7]] 0 [0, 2, 4, 1, 6, 3, 7, 5] = .ok [] := by decide +kernel

end Falseness
end Ringing
