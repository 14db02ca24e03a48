import Verif.Model.MethodSet
import Verif.Lemmas.Group
import Verif.Props.LibrarySearch
import Verif.Props.LibraryOut
import Verif.Lemmas.MusicState
import Mathlib.Data.Set.Card

/-! C64: the in-memory library `methodset`. -/
namespace Ringing.Lib
open Spec

/-! ### The specification: a dictionary with the changes as the key -/

/-- The order of changes and of methods: the number of bells first, then the first pairs that differ. -/
def ChangeBefore (a b : Change) : Prop := a.n < b.n ∨ a.n = b.n ∧ List.Lex (· < ·) a.swaps b.swaps

/-- A dictionary of methods: for a list of changes the method with these changes, its name and its payload. -/
structure Dict where
  get : List Change → Option SetEntry
  keep : Bool

/-- What can be done to a `methodset`. -/
inductive SetOp
  | method (m : Named)
  | entry (v : View)
  | store
  | clear
  | payload (m : Named) (p : Str)

/-- Adding a method to a dictionary: nothing happens if there is one with the same changes. -/
def Dict.add (d : Dict) (e : SetEntry) : Dict :=
  { d with get := fun c => if c = e.meth.m.ch ∧ d.get c = none then some e else d.get c }

/-- What happens to the dictionary. -/
inductive Dict.After : List SetOp → Dict → Prop
  | nil : After [] ⟨fun _ => none, false⟩
  | method {ops : List SetOp} {d : Dict} (m : Named) : After ops d → After (ops ++ [.method m]) (d.add ⟨m, none⟩)
  | entry {ops : List SetOp} {d : Dict} {v : View} {m : Named} : After ops d → v.meth = .ok m →
      After (ops ++ [.entry v]) (d.add ⟨m, if d.keep then v.payload else none⟩)
  | store {ops : List SetOp} {d : Dict} : After ops d → After (ops ++ [.store]) { d with keep := true }
  | clear {ops : List SetOp} {d : Dict} : After ops d → After (ops ++ [.clear]) { d with get := fun _ => none }
  | payload {ops : List SetOp} {d : Dict} {m : Named} {e : SetEntry} (p : Str) : After ops d → d.get m.m.ch = some e →
      After (ops ++ [.payload m p]) { d with get := fun c => if c = m.m.ch then some { e with payload := some p } else d.get c }

/-- One call. -/
def doOp (s : MethodSet) : SetOp → Out MethodSet
  | .method m => .ok (s.appendMethod m)
  | .entry v => s.appendEntry v
  | .store => .ok s.storeFacet
  | .clear => .ok s.clear
  | .payload m p => s.setPayload m p

/-- The calls one after another. -/
def doOps (s : MethodSet) : List SetOp → Out MethodSet
  | [] => .ok s
  | o :: os => doOp s o >>= fun s' => doOps s' os

/-- The set holds what the dictionary says, in increasing order. -/
structure Keeps (s : MethodSet) (d : Dict) : Prop where
  keep : s.keep = d.keep
  sorted : s.data.Pairwise fun a b => List.Lex ChangeBefore a.meth.m.ch b.meth.m.ch
  mem : ∀ c e, d.get c = some e ↔ e ∈ s.data ∧ e.meth.m.ch = c

/-! ### Orders -/

theorem changeSTO : Group.IsSTO Change.lt := by
  have h := Group.rowSTO
  constructor
  · intro a; simp [Change.lt, h.irrefl]
  · intro a b c h1 h2
    simp only [Change.lt, Bool.or_eq_true, Bool.and_eq_true, decide_eq_true_eq] at h1 h2 ⊢
    rcases h1 with h1 | ⟨h1, h1'⟩ <;> rcases h2 with h2 | ⟨h2, h2'⟩
    · left; omega
    · left; omega
    · left; omega
    · right; exact ⟨by omega, h.trans _ _ _ h1' h2'⟩
  · intro a b
    simp only [Change.lt, Bool.or_eq_true, Bool.and_eq_true, decide_eq_true_eq]
    rcases Nat.lt_trichotomy a.n b.n with hn | hn | hn
    · left; left; exact hn
    · rcases h.total a.swaps b.swaps with hs | hs | hs
      · left; right; exact ⟨hn, hs⟩
      · right; left; cases a; cases b; simp_all
      · right; right; right; exact ⟨hn.symm, hs⟩
    · right; right; left; exact hn

theorem lex_iff {α : Type} {lt : α → α → Bool} {R : α → α → Prop} (h : Group.IsSTO lt) (hR : ∀ a b, lt a b = true ↔ R a b)
    {x y : α} {xs ys : List α} :
    List.Lex R (x :: xs) (y :: ys) ↔ lt x y = true ∨ (lt y x = false ∧ List.Lex R xs ys) := by
  constructor
  · intro hl
    cases hl with
    | rel h' => exact Or.inl ((hR _ _).2 h')
    | cons h' => exact Or.inr ⟨h.irrefl _, h'⟩
  · rintro (h' | ⟨h', h2⟩)
    · exact .rel ((hR _ _).1 h')
    · rcases h.total x y with h3 | rfl | h3
      · exact .rel ((hR _ _).1 h3)
      · exact .cons h2
      · rw [h3] at h'; cases h'

theorem rowLt_iff : ∀ a b : Row, Row.lt a b = true ↔ List.Lex (· < ·) a b
  | a, [] => by unfold Row.lt; simp
  | [], y :: ys => by unfold Row.lt; simp
  | x :: xs, y :: ys => by
    rw [lex_iff Group.natSTO (by simp), ← rowLt_iff xs ys]
    conv_lhs => unfold Row.lt
    by_cases h1 : x < y
    · simp [h1]
    · by_cases h2 : y < x
      · simp [h1, h2]
      · simp [h1, h2]

theorem changeLt_iff (a b : Change) : Change.lt a b = true ↔ ChangeBefore a b := by
  unfold Change.lt ChangeBefore
  rw [← rowLt_iff]; simp

theorem vecLt_iff : ∀ a b : List Change, vecLt a b = true ↔ List.Lex ChangeBefore a b
  | a, [] => by unfold vecLt; simp
  | [], y :: ys => by unfold vecLt; simp
  | x :: xs, y :: ys => by
    rw [lex_iff changeSTO changeLt_iff, ← vecLt_iff xs ys]
    conv_lhs => unfold vecLt
    cases Change.lt x y <;> cases Change.lt y x <;> simp

theorem vecSTO : Group.IsSTO vecLt := by
  have h := changeSTO
  have e := @lex_iff Change Change.lt ChangeBefore h changeLt_iff
  constructor
  · intro a
    induction a with
    | nil => rfl
    | cons x xs ih => unfold vecLt; simp [h.irrefl, ih]
  · intro a
    induction a with
    | nil => intro b c h1 h2; cases b <;> cases c <;> simp_all [vecLt]
    | cons x xs ih =>
      intro b c h1 h2
      rcases b with _ | ⟨y, ys⟩
      · simp [vecLt] at h1
      rcases c with _ | ⟨z, zs⟩
      · simp [vecLt] at h2
      rw [vecLt_iff, e] at h1 h2 ⊢
      rw [← vecLt_iff] at h1 h2 ⊢
      rcases h1 with h1 | ⟨h1, h1'⟩
      · rcases h2 with h2 | ⟨h2, h2'⟩
        · exact Or.inl (h.trans _ _ _ h1 h2)
        · rcases h.total y z with h3 | rfl | h3
          · exact Or.inl (h.trans _ _ _ h1 h3)
          · exact Or.inl h1
          · rw [h3] at h2; cases h2
      · rcases h2 with h2 | ⟨h2, h2'⟩
        · rcases h.total x y with h3 | rfl | h3
          · exact Or.inl (h.trans _ _ _ h3 h2)
          · exact Or.inl h2
          · rw [h3] at h1; cases h1
        · rcases h.total x y with h3 | rfl | h3
          · rcases h.total y z with h4 | rfl | h4
            · exact Or.inl (h.trans _ _ _ h3 h4)
            · exact Or.inl h3
            · rw [h4] at h2; cases h2
          · exact Or.inr ⟨h2, ih _ _ h1' h2'⟩
          · rw [h3] at h1; cases h1
  · intro a
    induction a with
    | nil => intro b; cases b <;> simp [vecLt]
    | cons x xs ih =>
      intro b
      rcases b with _ | ⟨y, ys⟩
      · simp [vecLt]
      rcases h.total x y with h3 | rfl | h3
      · left; unfold vecLt; simp [h3]
      · rcases ih ys with h4 | rfl | h4
        · left; unfold vecLt; simp [h.irrefl, h4]
        · right; left; rfl
        · right; right; unfold vecLt; simp [h.irrefl, h4]
      · right; right; unfold vecLt; simp [h3]

/-! ### Elements of the set -/

/-- The changes of an entry. -/
abbrev key (e : SetEntry) : List Change := e.meth.m.ch

abbrev Sorted (l : List SetEntry) : Prop := l.Pairwise fun a b => vecLt (key a) (key b) = true

theorem mem_insert (a : SetEntry) : ∀ {s : List SetEntry}, Sorted s → ∀ x,
    x ∈ (Group.setInsert entryLt a s).1 ↔ x ∈ s ∨ (x = a ∧ ∀ y ∈ s, key y ≠ key a) := by
  intro s
  induction s with
  | nil => intro _ x; simp [Group.setInsert]
  | cons y s ih =>
    intro hs x
    have hs' := List.pairwise_cons.1 hs
    unfold Group.setInsert entryLt
    by_cases h1 : vecLt (key y) (key a) = true
    · rw [if_pos h1]
      have hne : key y ≠ key a := fun e => by rw [e, vecSTO.irrefl] at h1; cases h1
      have := ih hs'.2 x
      unfold entryLt at this
      simp only [List.mem_cons, this]
      constructor
      · rintro (h | h | ⟨h, h'⟩)
        · tauto
        · tauto
        · right; exact ⟨h, by rintro z (rfl | hz); exacts [hne, h' z hz]⟩
      · rintro ((h | h) | ⟨h, h'⟩)
        · tauto
        · tauto
        · right; right; exact ⟨h, fun z hz => h' z (Or.inr hz)⟩
    · rw [if_neg h1]
      by_cases h2 : vecLt (key a) (key y) = true
      · rw [if_pos h2]
        have hne : ∀ z ∈ y :: s, key z ≠ key a := by
          intro z hz e
          rcases List.mem_cons.1 hz with rfl | hz
          · rw [e, vecSTO.irrefl] at h2; cases h2
          · have := vecSTO.trans _ _ _ h2 (hs'.1 z hz)
            rw [e, vecSTO.irrefl] at this; cases this
        constructor
        · intro h
          rcases List.mem_cons.1 h with h | h
          · exact Or.inr ⟨h, hne⟩
          · exact Or.inl h
        · rintro (h | ⟨h, -⟩)
          · exact List.mem_cons_of_mem _ h
          · rw [h]; exact List.mem_cons_self
      · rw [if_neg h2]
        have heq : key y = key a := by
          rcases vecSTO.total (key y) (key a) with h | h | h
          · exact absurd h h1
          · exact h
          · exact absurd h h2
        constructor
        · exact Or.inl
        · rintro (h | ⟨-, h⟩)
          · exact h
          · exact absurd heq (h y List.mem_cons_self)

theorem insert_sorted' (a : SetEntry) : ∀ {s : List SetEntry}, Sorted s → Sorted (Group.setInsert entryLt a s).1 := by
  intro s
  induction s with
  | nil => intro _; simp [Group.setInsert]
  | cons y s ih =>
    intro hs
    have hs' := List.pairwise_cons.1 hs
    have hm := mem_insert a hs'.2
    unfold Group.setInsert
    by_cases h1 : entryLt y a = true
    · rw [if_pos h1]
      refine List.pairwise_cons.2 ⟨fun x hx => ?_, ih hs'.2⟩
      rcases (hm x).1 hx with hx | ⟨rfl, -⟩
      · exact hs'.1 x hx
      · exact h1
    · rw [if_neg h1]
      by_cases h2 : entryLt a y = true
      · rw [if_pos h2]
        refine List.pairwise_cons.2 ⟨fun x hx => ?_, hs⟩
        rcases List.mem_cons.1 hx with rfl | hx
        · exact h2
        · exact vecSTO.trans _ _ _ h2 (hs'.1 x hx)
      · rw [if_neg h2]; exact hs

theorem findIn_spec (a : SetEntry) : ∀ {s : List SetEntry}, Sorted s →
    (∃ l e i, s = l ++ e :: i ∧ MethodSet.findIn a s = e :: i ∧ key e = key a) ∨
      (MethodSet.findIn a s = [] ∧ ∀ e ∈ s, key e ≠ key a) := by
  intro s
  induction s with
  | nil => intro _; right; exact ⟨rfl, by simp⟩
  | cons y s ih =>
    intro hs
    have hs' := List.pairwise_cons.1 hs
    unfold MethodSet.findIn
    by_cases h1 : entryLt y a = true
    · rw [if_pos h1]
      rcases ih hs'.2 with ⟨l, e, i, h2, h3, h4⟩ | ⟨h2, h3⟩
      · left; exact ⟨y :: l, e, i, by rw [h2]; rfl, h3, h4⟩
      · right; refine ⟨h2, fun e he => ?_⟩
        rcases List.mem_cons.1 he with rfl | he
        · intro hk; unfold entryLt at h1; rw [show e.meth.m.ch = key e from rfl, hk, vecSTO.irrefl] at h1; cases h1
        · exact h3 e he
    · rw [if_neg h1]
      by_cases h2 : entryLt a y = true
      · rw [if_pos h2]
        right; refine ⟨rfl, fun e he hk => ?_⟩
        have hlt : vecLt (key a) (key e) = true := by
          rcases List.mem_cons.1 he with rfl | he
          · exact h2
          · exact vecSTO.trans _ _ _ h2 (hs'.1 e he)
        rw [hk, vecSTO.irrefl] at hlt; cases hlt
      · rw [if_neg h2]
        left
        refine ⟨[], y, s, rfl, rfl, ?_⟩
        rcases vecSTO.total (key y) (key a) with h | h | h
        · exact absurd h h1
        · exact h
        · exact absurd h h2

theorem sorted_iff {l : List SetEntry} : Sorted l ↔ l.Pairwise fun a b => List.Lex ChangeBefore a.meth.m.ch b.meth.m.ch := by
  unfold Sorted
  simp only [vecLt_iff]

theorem sorted_inj {l : List SetEntry} (h : Sorted l) {a b : SetEntry} (ha : a ∈ l) (hb : b ∈ l) (e : key a = key b) : a = b := by
  by_contra hne
  have key : ∀ {l : List SetEntry}, Sorted l → ∀ a b, a ∈ l → b ∈ l → a ≠ b → key a = key b → False := by
    intro l
    induction l with
    | nil => simp
    | cons y l ih =>
      intro h a b ha hb hne e
      have h' := List.pairwise_cons.1 h
      rcases List.mem_cons.1 ha with ha' | ha' <;> rcases List.mem_cons.1 hb with hb' | hb'
      · exact hne (ha'.trans hb'.symm)
      · subst ha'; have := h'.1 _ hb'; rw [e, vecSTO.irrefl] at this; cases this
      · subst hb'; have := h'.1 _ ha'; rw [e, vecSTO.irrefl] at this; cases this
      · exact ih h'.2 a b ha' hb' hne e
  exact key h a b ha hb hne e

theorem keeps_add {s : MethodSet} {d : Dict} (h : Keeps s d) (e : SetEntry) :
    Keeps { s with data := (Group.setInsert entryLt e s.data).1 } (d.add e) := by
  obtain ⟨h1, h2, h3⟩ := h
  have h2' := sorted_iff.2 h2
  refine ⟨h1, sorted_iff.1 (insert_sorted' e h2'), fun c x => ?_⟩
  show (if c = e.meth.m.ch ∧ d.get c = none then some e else d.get c) = some x ↔ x ∈ (Group.setInsert entryLt e s.data).1 ∧ _
  rw [mem_insert e h2']
  have hnone : ∀ c, d.get c = none ↔ ∀ y ∈ s.data, key y ≠ c := by
    intro c
    constructor
    · intro hh y hy hk
      have := (h3 c y).2 ⟨hy, hk⟩
      rw [hh] at this; cases this
    · intro hh
      cases hd : d.get c with
      | none => rfl
      | some y =>
        have := (h3 c y).1 hd
        exact absurd this.2 (hh y this.1)
  by_cases hc : c = e.meth.m.ch ∧ d.get c = none
  · rw [if_pos hc]
    have hn := (hnone c).1 hc.2
    constructor
    · intro hx; injection hx with hx; subst hx
      exact ⟨Or.inr ⟨rfl, by rw [hc.1] at hn; exact hn⟩, hc.1.symm⟩
    · rintro ⟨hx | ⟨hx, -⟩, hx'⟩
      · exact absurd hx' (hn x hx)
      · rw [hx]
  · rw [if_neg hc, h3]
    constructor
    · rintro ⟨hx, hx'⟩; exact ⟨Or.inl hx, hx'⟩
    · rintro ⟨hx | ⟨hx, hn⟩, hx'⟩
      · exact ⟨hx, hx'⟩
      · subst hx; subst hx'
        exact absurd ⟨rfl, (hnone _).2 hn⟩ hc

theorem doOps_snoc (s : MethodSet) (ops : List SetOp) (o : SetOp) : doOps s (ops ++ [o]) = doOps s ops >>= fun s' => doOp s' o := by
  induction ops generalizing s with
  | nil => show (doOp s o >>= fun s' => .ok s') = doOp s o; cases doOp s o <;> rfl
  | cons x ops ih =>
    show (doOp s x >>= fun s' => doOps s' (ops ++ [o])) = (doOp s x >>= fun s' => doOps s' ops) >>= _
    cases doOp s x <;> simp [ih]

/-- C64: after any history of appended methods and entries, calls of `store_facet` and `clear`, and facets set on
entries that were found, the set holds for each list of changes the method appended first with these changes, with
the name it had and the facet last set, and iteration is in increasing order of the changes. -/
theorem C64_history {ops : List SetOp} {d : Dict} (h : Dict.After ops d) : ∃ s, doOps {} ops = .ok s ∧ Keeps s d := by
  induction h with
  | nil => exact ⟨{}, rfl, rfl, .nil, by simp⟩
  | method m _ ih =>
    obtain ⟨s, h1, h2⟩ := ih
    rw [doOps_snoc, h1]
    exact ⟨_, rfl, keeps_add h2 _⟩
  | entry _ hv ih =>
    obtain ⟨s, h1, h2⟩ := ih
    rw [doOps_snoc, h1]
    refine ⟨_, ?_, keeps_add h2 _⟩
    show MethodSet.appendEntry s _ = _
    unfold MethodSet.appendEntry
    rw [hv, h2.keep]; rfl
  | store _ ih =>
    obtain ⟨s, h1, h2⟩ := ih
    rw [doOps_snoc, h1]
    exact ⟨_, rfl, rfl, h2.sorted, h2.mem⟩
  | clear _ ih =>
    obtain ⟨s, h1, h2⟩ := ih
    rw [doOps_snoc, h1]
    exact ⟨_, rfl, h2.keep, .nil, by simp [MethodSet.clear]⟩
  | @payload ops d m e p _ he ih =>
    obtain ⟨s, h1, h2⟩ := ih
    rw [doOps_snoc, h1]
    have hs := sorted_iff.2 h2.sorted
    obtain ⟨k1, k2⟩ := (h2.mem _ _).1 he
    rcases findIn_spec ⟨m, none⟩ hs with ⟨l, e', i, h3, h4, h5⟩ | ⟨-, h3⟩
    · have hee : e' = e := sorted_inj hs (by rw [h3]; simp) k1 (by rw [h5]; exact k2.symm)
      subst hee
      have hk : key { e' with payload := some p } = key e' := rfl
      refine ⟨{ s with data := l ++ { e' with payload := some p } :: i }, ?_, h2.keep, ?_, fun c x => ?_⟩
      · show MethodSet.setPayload s m p = _
        unfold MethodSet.setPayload
        rw [h4]
        dsimp only
        rw [show s.data.take (s.data.length - (i.length + 1)) = l by rw [h3]; simp]
      · rw [← sorted_iff]
        rw [h3] at hs
        unfold Sorted at hs ⊢
        rw [List.pairwise_append, List.pairwise_cons] at hs ⊢
        refine ⟨hs.1, ⟨fun x hx => hs.2.1.1 x hx, hs.2.1.2⟩, fun a ha b hb => ?_⟩
        rcases List.mem_cons.1 hb with rfl | hb
        · exact hs.2.2 a ha e' (by simp)
        · exact hs.2.2 a ha b (by simp [hb])
      · show (if c = m.m.ch then some { e' with payload := some p } else d.get c) = some x ↔ _
        by_cases hc : c = m.m.ch
        · rw [if_pos hc]
          constructor
          · intro hx; injection hx with hx; subst hx
            exact ⟨by simp, by rw [hc]; exact h5⟩
          · rintro ⟨hx, hx'⟩
            simp only [List.mem_append, List.mem_cons] at hx
            have hcon : ∀ z, z ∈ l ∨ z ∈ i → z.meth.m.ch = c → False := by
              intro z hz hz'
              have : z = e' := sorted_inj hs (by rw [h3]; simp; tauto) k1 (by show z.meth.m.ch = _; rw [hz', hc]; exact k2.symm)
              subst this
              have hs' := hs
              rw [h3] at hs'
              unfold Sorted at hs'
              rw [List.pairwise_append, List.pairwise_cons] at hs'
              rcases hz with hz | hz
              · have := hs'.2.2 z hz z (by simp); rw [vecSTO.irrefl] at this; cases this
              · have := hs'.2.1.1 z hz; rw [vecSTO.irrefl] at this; cases this
            rcases hx with hx | hx | hx
            · exact (hcon x (Or.inl hx) hx').elim
            · rw [hx]
            · exact (hcon x (Or.inr hx) hx').elim
        · rw [if_neg hc, h2.mem]
          have hne : ∀ z : SetEntry, z.meth = e'.meth → z.meth.m.ch ≠ c := by
            intro z hz e; rw [hz] at e; exact hc (by rw [← e]; exact h5)
          show (x ∈ s.data ∧ _) ↔ x ∈ l ++ { e' with payload := some p } :: i ∧ _
          rw [h3]
          simp only [List.mem_append, List.mem_cons]
          constructor
          · rintro ⟨hx | hx | hx, hx'⟩
            · exact ⟨Or.inl hx, hx'⟩
            · subst hx; exact absurd hx' (hne _ rfl)
            · exact ⟨Or.inr (Or.inr hx), hx'⟩
          · rintro ⟨hx | hx | hx, hx'⟩
            · exact ⟨Or.inl hx, hx'⟩
            · subst hx; exact absurd hx' (hne _ rfl)
            · exact ⟨Or.inr (Or.inr hx), hx'⟩
    · exact absurd k2 (h3 e k1)

/-- What an entry of the set shows: its method, the name both as `name` and `base_name`, the number of bells, the
place notation in the short form with the symmetry, and the facet. -/
def entryView (e : SetEntry) : View := {
  name := .ok e.meth.name
  baseName := .ok e.meth.name
  pn := Method.formatC e.meth.m (Method.M_SYMMETRY ||| Method.M_DASH)
  bells := e.meth.m.b
  payload := e.payload
  own := some e.meth }

/-- C64: `find` gives the entry with the same changes, or a null entry if there is none. -/
theorem C64_find {s : MethodSet} {d : Dict} (h : Keeps s d) (m : Named) : s.find m = (d.get m.m.ch).map entryView := by
  have hs := sorted_iff.2 h.sorted
  unfold MethodSet.find
  rcases findIn_spec ⟨m, none⟩ hs with ⟨l, e, i, h1, h2, h3⟩ | ⟨h1, h2⟩
  · rw [h2, (h.mem m.m.ch e).2 ⟨by rw [h1]; simp, h3⟩]; rfl
  · rw [h1]
    cases hd : d.get m.m.ch with
    | none => rfl
    | some e =>
      obtain ⟨k1, k2⟩ := (h.mem _ _).1 hd
      exact absurd k2 (h2 e k1)

theorem mset_yields (s : MethodSet) : ∀ (i : List SetEntry) (e : SetEntry), ∃ x,
    Yields mset (some (e :: i)) s (i.map entryView) (some [x]) s := by
  intro i
  induction i with
  | nil => intro e; exact ⟨e, .nil⟩
  | cons y i ih =>
    intro e
    obtain ⟨x, hx⟩ := ih y
    refine ⟨x, ?_⟩
    exact .cons (L := mset) (e1 := some (y :: i)) rfl hx

theorem mset_exactly (s : MethodSet) : Exactly mset s (s.data.map entryView) := by
  unfold Exactly
  cases hd : s.data with
  | nil =>
    refine ⟨none, s, none, s, .nil, ?_⟩
    show mset.read none s = _
    simp [mset, hd]
  | cons e i =>
    obtain ⟨x, hx⟩ := mset_yields s i e
    refine ⟨some [x], s, none, s, ?_, rfl⟩
    refine .cons (L := mset) (e1 := some (e :: i)) (s1 := s) ?_ hx
    show mset.read none s = _
    simp [mset, hd]

/-- C64: iteration gives the entries of the dictionary, each once and in increasing order, and their number is
`size`. -/
theorem C64_list {s : MethodSet} {d : Dict} (h : Keeps s d) : ∃ es : List SetEntry,
    Exactly mset s (es.map entryView) ∧ es.length = s.size ∧ (∀ c e, d.get c = some e ↔ e ∈ es ∧ e.meth.m.ch = c) ∧
      es.Pairwise (fun a b => List.Lex ChangeBefore a.meth.m.ch b.meth.m.ch) ∧ s.size = {c | d.get c ≠ none}.ncard := by
  have hs := sorted_iff.2 h.sorted
  refine ⟨s.data, mset_exactly s, rfl, h.mem, h.sorted, ?_⟩
  · have e1 : {c | d.get c ≠ none} = ((s.data.map key).toFinset : Set (List Change)) := by
      ext c
      simp only [Set.mem_ofPred_eq, List.coe_toFinset, List.mem_map]
      constructor
      · intro hc
        cases hd : d.get c with
        | none => exact absurd hd hc
        | some e => exact ⟨e, (h.mem _ _).1 hd⟩
      · rintro ⟨e, he⟩ hc
        have := (h.mem c e).2 he
        rw [hc] at this; cases this
    rw [e1, Set.ncard_coe_finset, List.toFinset_card_of_nodup]
    · simp [MethodSet.size]
    · unfold List.Nodup
      rw [List.pairwise_map]
      refine hs.imp fun hab e => ?_
      rw [e, vecSTO.irrefl] at hab; cases hab


/-- C64: appending a range appends its entries one after another, and gives their number. -/
theorem C64_append (s : MethodSet) (vs : List View) :
    s.appendAll vs 0 = doOps s (vs.map .entry) >>= fun s' => .ok (s', vs.length) := by
  have key : ∀ (vs : List View) (s : MethodSet) n, s.appendAll vs n = doOps s (vs.map .entry) >>= fun s' => .ok (s', n + vs.length) := by
    intro vs
    induction vs with
    | nil => intro s n; rfl
    | cons v vs ih =>
      intro s n
      show (s.appendEntry v >>= fun s' => s'.appendAll vs (n + 1)) = (s.appendEntry v >>= fun s' => doOps s' (vs.map .entry)) >>= _
      cases s.appendEntry v with
      | ok s' => simp only [Out.ok_bind]; rw [ih]; simp [Nat.add_comm, Nat.add_left_comm]
      | _ => rfl
  simpa using key vs s 0

/-! ### The place notation of the entries -/

theorem blank_space {c : Char} (h : Blank c) : Space c := by
  unfold Blank at h; unfold Space; tauto

instance (c : Char) : Decidable (Space c) := inferInstanceAs (Decidable (_ ∨ _))

theorem decimal_noblank {n : Nat} : ∀ c ∈ Bell.decimal n, ¬ Space c ∧ c ≠ ':' := by
  intro c hc
  unfold Bell.decimal at hc
  have h := Nat.isDigit_of_mem_toDigits (b := 10) (by decide) (by decide) hc
  have h' : Digit c := by
    unfold Digit
    simp only [Char.isDigit, ge_iff_le, Bool.and_eq_true, decide_eq_true_eq] at h
    exact h
  refine ⟨?_, (digit_plain h').2.2⟩
  have h1 : 48 ≤ c.toNat := h'.1
  rintro (rfl | rfl | rfl | rfl | rfl | rfl) <;> revert h1 <;> decide

theorem toChar_noblank (b : Nat) : ¬ Space (Bell.toChar b) ∧ Bell.toChar b ≠ ':' := by
  by_cases h : b < 33
  · have : ∀ b, b < 33 → ¬ Space (Bell.toChar b) ∧ Bell.toChar b ≠ ':' := by decide
    exact this b h
  · unfold Bell.toChar; rw [if_neg h]; decide

theorem print_noblank (c : Change) (st : Change.Cross) : ∀ x ∈ Change.print c st, ¬ Space x ∧ x ≠ ':' := by
  have hw : ∀ b, ∀ x ∈ Bell.write b, ¬ Space x ∧ x ≠ ':' := by
    intro b x hx
    unfold Bell.write at hx
    split at hx
    · simp at hx; subst hx; exact toChar_noblank b
    · simp only [List.mem_cons, List.mem_append, List.not_mem_nil, or_false] at hx
      rcases hx with rfl | hx | rfl
      · decide
      · exact decimal_noblank x hx
      · decide
  intro x hx
  unfold Change.print at hx
  dsimp only at hx
  split at hx
  · cases st <;> simp at hx <;> subst hx <;> decide
  · obtain ⟨b, -, hx⟩ := List.mem_flatMap.1 hx
    exact hw b x hx

theorem section_noblank (flags : Nat) : ∀ (cs : List Change) (dot first : Bool), ∀ x ∈ Method.section' flags cs dot first, ¬ Space x ∧ x ≠ ':' := by
  have hcr : ¬ Space (Method.crossChar flags) ∧ Method.crossChar flags ≠ ':' := by
    unfold Method.crossChar
    repeat' split
    all_goals decide
  have hch : ∀ c : Change, ∀ x ∈ Method.changeText flags c, ¬ Space x ∧ x ≠ ':' := by
    intro c x hx
    unfold Method.changeText at hx
    dsimp only at hx
    split at hx
    · exact print_noblank _ _ x hx
    · unfold Method.stripExternal at hx
      dsimp only at hx
      split at hx
      · have hsub : ∀ (p : List Char) (q : Prop) [Decidable q], x ∈ (if q then p.tail else p) → x ∈ p := by
          intro p q _ hp; split at hp
          · exact List.mem_of_mem_tail hp
          · exact hp
        have hsub' : ∀ (p : List Char) (q : Prop) [Decidable q], x ∈ (if q then p.dropLast else p) → x ∈ p := by
          intro p q _ hp; split at hp
          · exact List.mem_of_mem_dropLast hp
          · exact hp
        have hlast : ∀ (p : List Char) (q : Prop) [Decidable q], x ∈ (if q then [Bell.toChar 0] else p) → x = Bell.toChar 0 ∨ x ∈ p := by
          intro p q _ hp; split at hp
          · left; simpa using hp
          · right; exact hp
        rcases hlast _ _ hx with hx | hx
        · subst hx; exact toChar_noblank 0
        · exact print_noblank _ _ x (hsub _ _ (hsub' _ _ hx))
      · exact print_noblank _ _ x hx
  intro cs
  induction cs with
  | nil => intro d f x hx; simp [Method.section'] at hx
  | cons c cs ih =>
    intro d f x hx
    have hdot : ∀ (q : Prop) [Decidable q], x ∈ (if q then ['.'] else []) → ¬ Space x ∧ x ≠ ':' := by
      intro q _ h; split at h
      · simp at h; subst h; decide
      · simp at h
    unfold Method.section' at hx
    split at hx
    · rw [List.mem_append, List.mem_append] at hx
      rcases hx with (hx | hx) | hx
      · exact hdot _ hx
      · simp at hx; subst hx; exact hcr
      · exact ih _ _ x hx
    · rw [List.mem_append, List.mem_append] at hx
      rcases hx with (hx | hx) | hx
      · exact hdot _ hx
      · exact hch c x hx
      · exact ih _ _ x hx

theorem format_noblank {m : Method} {flags : Nat} {s : Str} (h : Method.formatC m flags = .ok s) : ∀ x ∈ s, ¬ Space x ∧ x ≠ ':' := by
  have hsec : ∀ lo hi t, Method.sectionC m lo hi flags = .ok t → ∀ x ∈ t, ¬ Space x ∧ x ≠ ':' := by
    intro lo hi t ht
    unfold Method.sectionC at ht
    split at ht
    · cases ht
    · injection ht with ht; subst ht; exact section_noblank _ _ _ _
  have hmark : ∀ x, ∀ (q : Prop) [Decidable q] (r : Prop) [Decidable r], x ∈ (if q then ['&'] else if r then ['+'] else []) → ¬ Space x ∧ x ≠ ':' := by
    intro x q _ r _ h
    split at h
    · simp at h; subst h; decide
    · split at h
      · simp at h; subst h; decide
      · simp at h
  have hplus : ∀ x, ∀ (r : Prop) [Decidable r], x ∈ (if r then ['+'] else []) → ¬ Space x ∧ x ≠ ':' := by
    intro x r _ h
    split at h
    · simp at h; subst h; decide
    · simp at h
  unfold Method.formatC at h
  dsimp only at h
  obtain ⟨o, -, h⟩ := Out.bind_eq_ok.1 h
  cases o with
  | none =>
    dsimp only at h
    obtain ⟨t, ht, h⟩ := Out.bind_eq_ok.1 h
    injection h with h; subst h
    intro x hx
    rcases List.mem_append.1 hx with hx | hx
    · exact hplus _ _ hx
    · exact hsec _ _ _ ht x hx
  | some k =>
    dsimp only at h
    obtain ⟨t, ht, h⟩ := Out.bind_eq_ok.1 h
    split at h
    · injection h with h; subst h
      intro x hx
      rcases List.mem_append.1 hx with hx | hx
      · exact hmark _ _ _ hx
      · exact hsec _ _ _ ht x hx
    · obtain ⟨u, hu, h⟩ := Out.bind_eq_ok.1 h
      injection h with h; subst h
      intro x hx
      simp only [List.mem_append] at hx
      rcases hx with (((hx | hx) | hx) | hx) | hx
      · exact hmark _ _ _ hx
      · exact hsec _ _ _ ht x hx
      · simp at hx; subst hx; decide
      · exact hmark _ _ _ hx
      · exact hsec _ _ _ hu x hx

/-- The methods are well-formed methods on one to thirty-three bells. -/
def WellFormed (m : Method) : Prop := 1 ≤ m.b ∧ m.b ≤ 33 ∧ ∀ c ∈ m.ch, IsChange c.n c.swaps ∧ c.n = m.b

theorem view_pn {e : SetEntry} (h : WellFormed e.meth.m) : ∃ p, (entryView e).pn = .ok p ∧ Method.ofStringC p e.meth.m.b = .ok e.meth.m ∧
    ∀ c ∈ p, ¬ Blank c ∧ c ≠ ':' := by
  obtain ⟨h0, h1, h2⟩ := h
  have hno : Method.has (Method.M_SYMMETRY ||| Method.M_DASH) Method.M_OMIT_LH = false := by decide
  obtain ⟨p, k1, k2, k3⟩ := C17_roundtrip (m := e.meth.m) (by omega) h2 (Method.M_SYMMETRY ||| Method.M_DASH) (Or.inr hno)
  refine ⟨p, k1, ?_, fun c hc => ⟨fun hb => (format_noblank k1 c hc).1 (blank_space hb), (format_noblank k1 c hc).2⟩⟩
  rw [k3 h1, k2, hno]; rfl

/-- C64: a method made from the place notation, number of bells and base name of an entry, as `load` does, is the
method of the entry. -/
theorem C64_made {e : SetEntry} (h : WellFormed e.meth.m) : (entryView e).made = .ok e.meth := by
  obtain ⟨p, h1, h2, -⟩ := view_pn h
  unfold View.made
  rw [h1, Out.ok_bind]
  show (Out.ok e.meth.name >>= fun n => _) = _
  rw [Out.ok_bind]
  show (if (e.meth.m.b : Int) < 0 then Out.ub else _) = _
  rw [if_neg (by omega)]
  show (Method.ofStringC p ((e.meth.m.b : Int)).toNat >>= _) = _
  rw [Int.toNat_natCast, h2]; rfl


theorem listLoop_views : ∀ (n : Nat) (e : LiteEntry) (l : Lite) (vs : List View) (l' : Lite),
    listLoop lite n e l = .ok (vs, l') → ∀ v ∈ vs, ∃ e, v = lite.view e := by
  intro n
  induction n with
  | zero => intro e l vs l' h; cases h
  | succ n ih =>
    intro e l vs l' h
    unfold listLoop at h
    obtain ⟨r, hr, h⟩ := Out.bind_eq_ok.1 h
    split at h
    · obtain ⟨t, ht, h⟩ := Out.bind_eq_ok.1 h
      injection h with h
      have hv : lite.view r.2.1 :: t.1 = vs := congrArg Prod.fst h
      subst hv
      intro v hv
      rcases List.mem_cons.1 hv with rfl | hv
      · exact ⟨_, rfl⟩
      · exact ih _ _ _ t.2 ht v hv
    · injection h with h
      have hv : [] = vs := congrArg Prod.fst h
      subst hv; intro v hv; cases hv

theorem stagename_ne (b : Int) : Method.stagename b ≠ [] := by
  unfold Method.stagename
  split
  · rename_i h
    obtain ⟨k, hk⟩ : ∃ k : Nat, b = k + 3 := ⟨(b - 3).toNat, by omega⟩
    subst hk
    have hk : k < 20 := by omega
    have : ∀ k, k < 20 → (Method.txtStages.getD k "").toList ≠ [] := by decide
    simpa using this k hk
  · intro h
    have h1 := (decimalInt_plain b).2
    cases hd : decimalInt b with
    | nil => exact h1 hd
    | cons x xs => rw [hd] at h; cases h

theorem baseName_nil (b : Int) : baseName [] b = .ok [] := by
  have h : removeSuffix [] (Method.stagename b) = .ok (false, []) := by
    unfold removeSuffix findSub
    rw [if_neg (stagename_ne b)]
  unfold baseName
  rw [h, Out.ok_bind]; rfl

/-- C64: the methods of a set written with their numbers of bells, read back by a lightweight library for any
number of bells and appended to a new set are the same methods in the same order. -/
theorem C64_copy {past : Out Nat} {s : MethodSet} {d : Dict} (h : Keeps s d) (hw : ∀ c e, d.get c = some e → WellFormed e.meth.m) :
    ∃ (es : List SetEntry) (t : Str), Exactly mset s (es.map entryView) ∧ appendAll past true .none (es.map entryView) = .ok t ∧
      ∀ l fl, ReadsText l 0 t fl → ∀ n, s.size < n → ∃ (vs : List View) (l' : Lite) (s' : MethodSet) (es' : List SetEntry), list lite n l = .ok (vs, l') ∧
        MethodSet.appendAll {} vs 0 = .ok (s', s.size) ∧ Exactly mset s' (es'.map entryView) ∧
        es'.map (·.meth.m) = es.map (·.meth.m) := by
  obtain ⟨es, h1, h2, h3, h4, h5⟩ := C64_list h
  have hwf : ∀ e ∈ es, WellFormed e.meth.m := fun e he => hw _ e ((h3 _ _).2 ⟨he, rfl⟩)
  obtain ⟨xs, hx1, hx2, hx3⟩ : ∃ xs : List (Int × Str × Str), List.Forall₂ (Writes past .none) (es.map entryView) xs ∧
      (∀ x ∈ xs, Storable true x) ∧
      List.Forall₂ (fun (e : SetEntry) (x : Int × Str × Str) => x.1 = e.meth.m.b ∧ x.2.2 = [] ∧ Method.ofStringC x.2.1 e.meth.m.b = .ok e.meth.m) es xs := by
    clear h1 h2 h3 h4 h5
    induction es with
    | nil => exact ⟨[], .nil, by simp, .nil⟩
    | cons e es ih =>
      obtain ⟨xs, k1, k2, k3⟩ := ih fun e he => hwf e (by simp [he])
      have hwe := hwf e (by simp)
      obtain ⟨p, p1, p2, p3⟩ := view_pn hwe
      refine ⟨((e.meth.m.b : Int), p, []) :: xs, .cons ⟨rfl, p1, rfl⟩ k1, ?_, .cons ⟨rfl, rfl, p2⟩ k3⟩
      intro x hx
      rcases List.mem_cons.1 hx with rfl | hx
      · refine ⟨fun c hc => (p3 c hc).1, ⟨[], [], rfl, by simp, by simp, by simp, by simp⟩, by simp, ?_⟩
        obtain ⟨w1, w2, -⟩ := hwe
        rw [if_pos rfl]
        dsimp only
        refine ⟨?_, ?_, ?_⟩ <;> omega
      · exact k2 x hx
  obtain ⟨t, ht, hread⟩ := C61_bells hx1 hx2
  refine ⟨es, t, h1, ht, fun l fl hl n hn => ?_⟩
  have hlen : xs.length = s.size := by rw [← h2]; exact hx3.length_eq.symm
  obtain ⟨vs, l', hv1, hv2⟩ := hread 0 fl l hl n (by omega)
  rw [if_pos rfl] at hv2
  have hviews := listLoop_views _ _ _ _ _ hv1
  have hmeth : List.Forall₂ (fun (v : View) (e : SetEntry) => v.meth = .ok ⟨e.meth.m, []⟩) vs es := by
    clear h1 h2 h3 h4 h5 hx1 hx2 hread ht hv1 hlen hwf
    induction hv2 generalizing es with
    | nil => cases hx3; exact .nil
    | @cons v x vs xs g1 g2 ih =>
      cases hx3 with
      | @cons e _ es _ g3 g4 =>
        refine .cons ?_ (ih _ g4 fun w hw => hviews w (List.mem_cons_of_mem _ hw))
        obtain ⟨le, rfl⟩ := hviews v (by simp)
        obtain ⟨q1, q2, q3, q4⟩ := g1
        obtain ⟨r1, r2, r3⟩ := g3
        show View.made _ = _
        have hb : (lite.view le).baseName = .ok [] := by
          have hnm : le.name = .ok [] := by
            rw [show le.name = (lite.view le).name from rfl, q4, r2]; simp
          show (le.name >>= fun n => baseName n le.b) = _
          rw [hnm, Out.ok_bind, baseName_nil]
        unfold View.made
        rw [q2, Out.ok_bind, hb, Out.ok_bind, q1, r1, if_neg (by omega), Int.toNat_natCast, r3]; rfl
  -- appending the entries
  have happ : ∀ (vs : List View) (es : List SetEntry), List.Forall₂ (fun (v : View) (e : SetEntry) => v.meth = .ok ⟨e.meth.m, []⟩) vs es →
      ∀ (s0 : MethodSet), s0.keep = false → (s0.data ++ es).Pairwise (fun a b => List.Lex ChangeBefore a.meth.m.ch b.meth.m.ch) →
      doOps s0 (vs.map .entry) = .ok { s0 with data := s0.data ++ es.map fun e => ⟨⟨e.meth.m, []⟩, none⟩ } := by
    intro vs es hf
    induction hf with
    | nil => intro s0 _ _; simp [doOps]
    | @cons v e vs es g1 g2 ih =>
      intro s0 hk hp
      have hins : (Group.setInsert entryLt ⟨⟨e.meth.m, []⟩, none⟩ s0.data).1 = s0.data ++ [⟨⟨e.meth.m, []⟩, none⟩] := by
        have hall : ∀ x ∈ s0.data, vecLt (key x) e.meth.m.ch = true := by
          rw [List.pairwise_append] at hp
          intro x hx; rw [vecLt_iff]; exact hp.2.2 x hx e (by simp)
        generalize s0.data = dd at hall
        induction dd with
        | nil => rfl
        | cons y dd ih' =>
          unfold Group.setInsert
          rw [if_pos (show entryLt y ⟨⟨e.meth.m, []⟩, none⟩ = true from hall y (by simp))]
          rw [ih' fun x hx => hall x (by simp [hx])]; rfl
      show (s0.appendEntry v >>= fun s' => doOps s' (vs.map .entry)) = _
      unfold MethodSet.appendEntry
      rw [g1, Out.ok_bind, Out.ok_bind, hk]
      simp only [Bool.false_eq_true, if_false]
      rw [hins]
      rw [ih _ rfl ?_]
      · simp
      · show ((s0.data ++ [_]) ++ es).Pairwise _
        have : (s0.data ++ e :: es) = (s0.data ++ [e]) ++ es := by simp
        rw [this] at hp
        rw [List.pairwise_append, List.pairwise_append] at hp ⊢
        refine ⟨⟨hp.1.1, by simp, fun a ha b hb => ?_⟩, hp.2.1, fun a ha b hb => ?_⟩
        · simp at hb; subst hb; exact hp.1.2.2 a ha e (by simp)
        · rcases List.mem_append.1 ha with ha | ha
          · exact hp.2.2 a (by simp [ha]) b hb
          · simp at ha; subst ha; exact hp.2.2 e (by simp) b hb
  have hdo := happ vs es hmeth {} rfl (by simpa using h4)
  refine ⟨vs, l', { data := es.map fun e => ⟨⟨e.meth.m, []⟩, none⟩, keep := false }, es.map fun e => ⟨⟨e.meth.m, []⟩, none⟩, hv1, ?_,
    mset_exactly _, by simp⟩
  rw [C64_append, hdo, Out.ok_bind]
  have : vs.length = s.size := by rw [hmeth.length_eq, h2]
  rw [this]; rfl

/-! ### Examples -/

/-- Plain Bob Minimus and a method with the same changes and another name. -/
def plainBob4 : Method := ⟨4, [⟨4, [0, 2]⟩, ⟨4, [1]⟩, ⟨4, [0, 2]⟩, ⟨4, [1]⟩, ⟨4, [0, 2]⟩, ⟨4, [1]⟩, ⟨4, [0, 2]⟩, ⟨4, [2]⟩]⟩

/-- The history of the example: the second method is not appended, as there is one with its changes. -/
def someOps : List SetOp :=
  [.store, .method ⟨plainBob4, "Plain".toList⟩, .method ⟨plainBob4, "Again".toList⟩, .method ⟨⟨3, [⟨3, [0]⟩]⟩, "A".toList⟩,
    .payload ⟨plainBob4, []⟩ "x".toList]

example : ∃ d, Dict.After someOps d ∧ d.get plainBob4.ch = some ⟨⟨plainBob4, "Plain".toList⟩, some "x".toList⟩ :=
  ⟨_, .payload (ops := [.store, .method _, .method _, .method _]) _ (.method (ops := [.store, .method _, .method _]) _
    (.method (ops := [.store, .method _]) _ (.method (ops := [.store]) _ (.store (ops := []) .nil)))) rfl, rfl⟩

example : doOps {} someOps = .ok ⟨[⟨⟨⟨3, [⟨3, [0]⟩]⟩, "A".toList⟩, none⟩, ⟨⟨plainBob4, "Plain".toList⟩, some "x".toList⟩], true⟩ := by
  decide +kernel

example : WellFormed plainBob4 := by unfold WellFormed IsChange; decide +kernel

end Ringing.Lib
