import Verif.Model.Music
import Verif.Lemmas.MusicSpec
import Verif.Lemmas.Out
import Mathlib.Data.List.Perm.Basic
import Mathlib.Data.List.Infix
import Mathlib.Tactic.Push
/-! The tree of patterns of a `music`: what adding a pattern does to the matches. -/
namespace Ringing
open Spec

/-! ### Characters -/

/-- The characters that are not bells in patterns. -/
def Special (c : Char) : Prop := c = '?' ∨ c = '[' ∨ c = ']' ∨ c = '*' ∨ c = '{'

instance (c : Char) : Decidable (Special c) := inferInstanceAs (Decidable (_ ∨ _))

theorem symU {c d : Char} (h : c.toUpper = d) : Bell.isSymbol c = (if (Bell.strchr d).isSome then true
    else if d = 'I' ∨ d = '1' then (Bell.strchr 'I').isNone ^^ (Bell.strchr '1').isNone
    else if d = 'O' ∨ d = '0' then (Bell.strchr 'O').isNone ^^ (Bell.strchr '0').isNone
    else false) := by subst h; rfl

theorem readU {c d : Char} (h : c.toUpper = d) : Bell.readChar c = (match Bell.strchr d with
  | some i => .ok i
  | none =>
    let alt (d : Char) (k : Out Nat) : Out Nat :=
      if Bell.isSymbol d then (match Bell.strchr d with | some i => .ok i | none => .throw .bellInvalid) else k
    let c4 := alt 'O' (.throw .bellInvalid)
    let c3 := alt '0' c4
    let c2 := alt 'I' c3
    let c1 := alt '1' c2
    if d = 'I' then c1 else if d = '1' then c2 else if d = 'O' then c3 else if d = '0' then c4
    else .throw .bellInvalid) := by subst h; rfl

theorem bellChar {c : Char} {b : Nat} (h : BellChar c b) :
    Bell.isSymbol c = true ∧ Bell.readChar c = .ok b ∧ ¬ Special c ∧ b < 33 := by
  rcases h with h | ⟨h, rfl⟩ | ⟨h, rfl⟩
  · have hb : b < 33 := by
      have := (List.getElem?_eq_some_iff.1 h).1
      simpa using this
    have key : ∀ b, b < 33 → ∀ d, "1234567890ETABCDFGHJKLMNPQRSUVWYZ".toList[b]? = some d →
        Bell.strchr d = some b ∧ ¬ Special d := by
      intro b hb d hd
      have : ∀ b : Fin 33, Bell.strchr ("1234567890ETABCDFGHJKLMNPQRSUVWYZ".toList[b.1]?.getD ' ') = some b.1 ∧
          ¬ Special ("1234567890ETABCDFGHJKLMNPQRSUVWYZ".toList[b.1]?.getD ' ') := by decide
      have := this ⟨b, hb⟩
      rw [show (⟨b, hb⟩ : Fin 33).1 = b from rfl, hd] at this
      exact this
    obtain ⟨k1, k2⟩ := key b hb _ h
    refine ⟨by rw [symU rfl, k1]; rfl, by rw [readU rfl, k1], ?_, hb⟩
    intro hs
    apply k2
    rcases hs with rfl | rfl | rfl | rfl | rfl <;> decide
  · refine ⟨by rw [symU h]; decide, by rw [readU h]; decide, ?_, by decide⟩
    intro hs
    rcases hs with rfl | rfl | rfl | rfl | rfl <;> exact absurd h (by decide)
  · refine ⟨by rw [symU h]; decide, by rw [readU h]; decide, ?_, by decide⟩
    intro hs
    rcases hs with rfl | rfl | rfl | rfl | rfl <;> exact absurd h (by decide)

theorem readExtended_bell {c : Char} {b : Nat} (h : BellChar c b) (cs : List Char) :
    Bell.readExtended (c :: cs) = .ok (b, cs) := by
  obtain ⟨h1, h2, h3, -⟩ := bellChar h
  have : c ≠ '{' := fun e => h3 (by subst e; decide)
  unfold Bell.readExtended
  simp only [this, ne_eq, not_false_eq_true, if_true, h2]
  rfl

theorem spells_length {p : List Tok} {s : List Char} (h : Spells p s) : s.length = width p := by
  induction h with
  | nil => rfl
  | bell _ _ ih => simp [width, ih]; omega
  | any _ ih => simp [width, ih]; omega
  | set hl _ ih => simp [ih, width, hl.length_eq]; omega
  | star _ ih => simp [width, ih]; omega

theorem spells_star {p : List Tok} {s : List Char} (h : Spells p s) : s.contains '*' = true ↔ Tok.star ∈ p := by
  have hb : ∀ {c b}, BellChar c b → c ≠ '*' := by
    intro c b h e
    exact (bellChar h).2.2.1 (by subst e; decide)
  induction h with
  | nil => simp
  | bell hb' _ ih => simpa [(hb hb').symm] using ih
  | any _ ih => simpa using ih
  | @set cs l p s hl _ ih =>
    have hc : '*' ∉ cs := by
      intro hm
      obtain ⟨i, hi, e⟩ := List.getElem_of_mem hm
      have := hl.get hi (by rw [← hl.length_eq]; exact hi)
      simp only [List.get_eq_getElem, e] at this
      exact hb this rfl
    simpa [hc] using ih
  | star _ ih => simp

theorem spells_nil {p : List Tok} {s : List Char} (h : Spells p s) : s = [] ↔ p = [] := by
  cases h <;> simp

theorem countLoop_add (s : List Char) (br : Bool) (t : Nat) :
    Wildcard.countLoop s br t = t + Wildcard.countLoop s br 0 := by
  induction s generalizing br t with
  | nil => simp [Wildcard.countLoop]
  | cons c s ih =>
    unfold Wildcard.countLoop
    repeat' split
    · rw [ih, ih (t := 0 + 1)]; omega
    · rw [ih]
    · rw [ih, ih (t := 0 + 1)]; omega
    · rw [ih, ih (t := 0 + 1)]; omega
    · rw [ih]

theorem countLoop_set {cs : List Char} {l : List Nat} (h : List.Forall₂ BellChar cs l) (s : List Char) :
    Wildcard.countLoop (cs ++ s) true 0 = Wildcard.countLoop s true 0 := by
  induction h with
  | nil => rfl
  | cons h _ ih =>
    have h3 := (bellChar h).2.2.1
    unfold Special at h3
    push Not at h3
    rw [List.cons_append, Wildcard.countLoop, if_neg h3.1, if_neg h3.2.1, if_neg h3.2.2.1, if_neg (by simp), ih]

theorem spells_count {p : List Tok} {s : List Char} (h : Spells p s) : Wildcard.countBells s = ones p := by
  unfold Wildcard.countBells
  induction h with
  | nil => rfl
  | bell h _ ih =>
    obtain ⟨h1, -, h3, -⟩ := bellChar h
    unfold Special at h3
    push Not at h3
    rw [Wildcard.countLoop, if_neg h3.1, if_neg h3.2.1, if_neg h3.2.2.1, if_pos ⟨rfl, h1⟩, countLoop_add, ih]
    simp [ones]; omega
  | any _ ih => rw [Wildcard.countLoop, if_pos rfl, countLoop_add, ih]; simp [ones]; omega
  | set hl _ ih =>
    rw [Wildcard.countLoop, if_neg (by decide), if_pos rfl, countLoop_set hl, Wildcard.countLoop, if_neg (by decide),
      if_neg (by decide), if_pos rfl, countLoop_add, ih]
    simp [ones]; omega
  | star _ ih =>
    rw [Wildcard.countLoop, if_neg (by decide), if_neg (by decide), if_neg (by decide), if_neg (by decide), ih]
    simp [ones]

/-! ### Matches of a tree -/
namespace MNode
variable (g : Nat → Nat) (tl : Nat → List Nat)

mutual
/-- The matches that a node records, in order: which pattern, and the bells its wildcards stand for. -/
def visits : MNode → Nat → List Nat → List (Nat × List Nat)
  | .node subs dm, pos, w => dm.map (·, w ++ tl pos) ++ visitsSub 0 subs (pos + 1) (w ++ [g pos]) ++
      visitsSub (g pos + 1) subs (pos + 1) w
def visitsSub (place : Nat) : List (Nat × MNode) → Nat → List Nat → List (Nat × List Nat)
  | [], _, _ => []
  | (k, n) :: subs, pos, w => if k = place then visits n pos w else visitsSub place subs pos w
end

/-- Recording a match. -/
def record (back : Bool) (res : List MusicDetails) (v : Nat × List Nat) : List MusicDetails :=
  res.modify v.1 fun d => { d.increment back with wilds := v.2 }

theorem length_record (back : Bool) (res : List MusicDetails) (v : Nat × List Nat) :
    (record back res v).length = res.length := by simp [record]

theorem length_records (back : Bool) (vs : List (Nat × List Nat)) (res : List MusicDetails) :
    (vs.foldl (record back) res).length = res.length := by
  induction vs generalizing res with
  | nil => rfl
  | cons v vs ih => rw [List.foldl_cons, ih, length_record]

theorem dmLoop_eq (back : Bool) (w : List Nat) (dm : List Nat) (res : List MusicDetails) (h : ∀ k ∈ dm, k < res.length) :
    dmLoop back w dm res = .ok ((dm.map (·, w)).foldl (record back) res) := by
  induction dm generalizing res with
  | nil => rfl
  | cons k dm ih =>
    have hk := h k (by simp)
    rw [dmLoop, vget, List.getElem?_eq_getElem hk]
    simp only [Out.ok_bind]
    rw [vset, if_pos hk, Out.ok_bind, List.map_cons, List.foldl_cons]
    have e : res.set k { (res[k]).increment back with wilds := w } = record back res (k, w) := by
      rw [record, List.modify_eq_set_getElem? , List.getElem?_eq_getElem hk]; rfl
    rw [e]
    exact ih _ (fun j hj => by rw [length_record]; exact h j (by simp [hj]))

theorem hasKey_false {place : Nat} {subs : List (Nat × MNode)} (h : hasKey place subs = false) (pos : Nat) (w : List Nat) :
    visitsSub g tl place subs pos w = [] := by
  induction subs with
  | nil => rw [visitsSub]
  | cons x subs ih =>
    obtain ⟨k, n⟩ := x
    rw [hasKey, Bool.or_eq_false_iff] at h
    rw [visitsSub, if_neg (by simpa using h.1), ih h.2]

theorem map_isEmpty_not {α β : Type} (l : List α) (f : α → β) : (!(l.map f).isEmpty) = !l.isEmpty := by cases l <;> rfl

theorem isEmpty_append {α : Type} (a b : List α) : (!(a ++ b).isEmpty) = (!a.isEmpty || !b.isEmpty) := by
  cases a <;> simp

mutual
theorem matchC_eq (back : Bool) : (n : MNode) → (pos : Nat) → (w : List Nat) → (res : List MusicDetails) →
    (∀ v ∈ visits g tl n pos w, v.1 < res.length) →
    matchC (fun p => .ok (g p)) tl back n pos w res =
      .ok ((visits g tl n pos w).foldl (record back) res, !(visits g tl n pos w).isEmpty)
  | .node subs dm, pos, w, res, h => by
    rw [visits] at h ⊢
    rw [matchC, dmLoop_eq back _ _ _ (fun k hk => h (k, w ++ tl pos) (by simp [hk])), Out.ok_bind]
    have h0 : (if hasKey 0 subs = true then (Out.ok (g pos) >>= fun x => matchSub (fun p => .ok (g p)) tl back 0 subs (pos + 1) (w ++ [x])
          ((dm.map (·, w ++ tl pos)).foldl (record back) res))
        else .ok ((dm.map (·, w ++ tl pos)).foldl (record back) res, false)) =
        .ok ((visitsSub g tl 0 subs (pos + 1) (w ++ [g pos])).foldl (record back) ((dm.map (·, w ++ tl pos)).foldl (record back) res),
          !(visitsSub g tl 0 subs (pos + 1) (w ++ [g pos])).isEmpty) := by
      split
      · rw [Out.ok_bind]
        exact matchSub_eq back 0 subs (pos + 1) _ _ (fun v hv => by rw [length_records]; exact h v (by simp [hv]))
      · rename_i hk
        rw [hasKey_false g tl (by simpa using hk)]
        rfl
    rw [h0, Out.ok_bind, Out.ok_bind]
    rw [matchSub_eq back _ subs (pos + 1) _ _ (fun v hv => by
      rw [length_records, length_records]; exact h v (by simp [hv])), Out.ok_bind]
    rw [List.foldl_append, List.foldl_append, isEmpty_append, isEmpty_append, map_isEmpty_not]
    congr 2
    cases (visitsSub g tl 0 subs (pos + 1) (w ++ [g pos])).isEmpty <;> cases dm.isEmpty <;>
      cases (visitsSub g tl (g pos + 1) subs (pos + 1) w).isEmpty <;> rfl
theorem matchSub_eq (back : Bool) (place : Nat) : (subs : List (Nat × MNode)) → (pos : Nat) → (w : List Nat) →
    (res : List MusicDetails) → (∀ v ∈ visitsSub g tl place subs pos w, v.1 < res.length) →
    matchSub (fun p => .ok (g p)) tl back place subs pos w res =
      .ok ((visitsSub g tl place subs pos w).foldl (record back) res, !(visitsSub g tl place subs pos w).isEmpty)
  | [], pos, w, res, _ => by rw [matchSub, visitsSub]; rfl
  | (k, n) :: subs, pos, w, res, h => by
    rw [visitsSub] at h ⊢
    rw [matchSub]
    split
    · rename_i e
      rw [if_pos e] at h
      exact matchC_eq back n pos w res h
    · rename_i e
      rw [if_neg e] at h
      exact matchSub_eq back place subs pos w res h
end

/-! ### Adding a pattern -/

/-- The program adds the matches `V` to those of a node at position `pos`. -/
def Adds (f : MNode → Out MNode) (pos : Nat) (V : (Nat → Nat) → (Nat → List Nat) → List Nat → List (Nat × List Nat)) : Prop :=
  ∀ n, ∃ n', f n = .ok n' ∧ ∀ g tl w, (visits g tl n' pos w).Perm (visits g tl n pos w ++ V g tl w)

theorem visits_new (pos : Nat) (w : List Nat) : visits g tl new pos w = [] := by
  rw [new, visits, visitsSub, visitsSub]; rfl

theorem updSubs_spec {f : MNode → Out MNode} {pos : Nat} {V} (hf : Adds f pos V) (place : Nat) (subs : List (Nat × MNode)) :
    ∃ subs', updSubs place f subs = .ok subs' ∧ ∀ g tl w q, (visitsSub g tl q subs' pos w).Perm
      (visitsSub g tl q subs pos w ++ if q = place then V g tl w else []) := by
  induction subs with
  | nil =>
    obtain ⟨n, e, h⟩ := hf new
    refine ⟨[(place, n)], by rw [updSubs, e]; rfl, fun g tl w q => ?_⟩
    rw [visitsSub, visitsSub, visitsSub]
    by_cases hq : q = place
    · rw [if_pos hq.symm, if_pos hq, List.nil_append]
      have := h g tl w
      rwa [visits_new, List.nil_append] at this
    · rw [if_neg (fun e => hq e.symm), if_neg hq]; exact List.Perm.refl _
  | cons x subs ih =>
    obtain ⟨k, n⟩ := x
    rw [updSubs]
    by_cases hk : k = place
    · obtain ⟨n', e, h⟩ := hf n
      refine ⟨(k, n') :: subs, by rw [if_pos hk, e]; rfl, fun g tl w q => ?_⟩
      rw [visitsSub, visitsSub]
      by_cases hq : k = q
      · rw [if_pos hq, if_pos hq, if_pos (by rw [← hq, hk])]; exact h g tl w
      · rw [if_neg hq, if_neg hq, if_neg (fun e => hq (by rw [hk, e])), List.append_nil]
    · obtain ⟨s, e, h⟩ := ih
      refine ⟨(k, n) :: s, by rw [if_neg hk, e]; rfl, fun g tl w q => ?_⟩
      rw [visitsSub, visitsSub]
      by_cases hq : k = q
      · rw [if_pos hq, if_pos hq, if_neg (fun e => hk (by rw [hq, e])), List.append_nil]
      · rw [if_neg hq, if_neg hq]; exact h g tl w q

theorem updC_spec {f : MNode → Out MNode} {pos : Nat} {V} (hf : Adds f (pos + 1) V) (place : Nat) :
    Adds (updC place f) pos fun g tl w => if place = 0 then V g tl (w ++ [g pos]) else if place = g pos + 1 then V g tl w else [] := by
  rintro ⟨subs, dm⟩
  obtain ⟨s, e, h⟩ := updSubs_spec hf place subs
  refine ⟨.node s dm, by rw [updC, e]; rfl, fun g tl w => ?_⟩
  rw [visits, visits]
  beta_reduce
  by_cases h0 : place = 0
  · rw [if_pos h0]
    have h1 := h g tl (w ++ [g pos]) 0
    have h2 := h g tl w (g pos + 1)
    rw [if_pos h0.symm] at h1
    rw [if_neg (by omega), List.append_nil] at h2
    refine ((h1.append_left _).append h2).trans ?_
    rw [List.append_assoc, List.append_assoc, List.append_assoc, List.append_assoc]
    exact (((List.perm_append_comm).append_left _).append_left _)
  · rw [if_neg h0]
    have h1 := h g tl (w ++ [g pos]) 0
    have h2 := h g tl w (g pos + 1)
    rw [if_neg (by omega), List.append_nil] at h1
    refine ((h1.append_left _).append h2).trans ?_
    rw [List.append_assoc, List.append_assoc, List.append_assoc]
    simp only [eq_comm (a := place)]
    exact List.Perm.refl _

theorem adds_id (pos : Nat) : Adds (fun n => .ok n) pos fun _ _ _ => [] :=
  fun n => ⟨n, rfl, fun g tl w => by rw [List.append_nil]⟩

theorem adds_bind {f h : MNode → Out MNode} {pos : Nat} {V U} (hf : Adds f pos V) (hh : Adds h pos U) :
    Adds (fun n => f n >>= h) pos fun g tl w => V g tl w ++ U g tl w := by
  intro n
  obtain ⟨n1, e1, h1⟩ := hf n
  obtain ⟨n2, e2, h2⟩ := hh n1
  refine ⟨n2, by simp only [e1, Out.ok_bind]; exact e2, fun g tl w => (h2 g tl w).trans ?_⟩
  rw [← List.append_assoc]
  exact (h1 g tl w).append_right _

theorem adds_congr {f : MNode → Out MNode} {pos : Nat} {V U} (hf : Adds f pos V) (h : ∀ g tl w, V g tl w = U g tl w) :
    Adds f pos U := by
  intro n
  obtain ⟨n', e, h'⟩ := hf n
  exact ⟨n', e, fun g tl w => by rw [← h]; exact h' g tl w⟩

theorem adds_pushKey (key pos : Nat) : Adds (fun n => .ok (n.pushKey key)) pos fun _ tl w => [(key, w ++ tl pos)] := by
  rintro ⟨subs, dm⟩
  refine ⟨_, rfl, fun g tl w => ?_⟩
  rw [pushKey, visits, visits, List.map_append, List.append_assoc, List.append_assoc, List.append_assoc, List.append_assoc]
  refine List.Perm.append_left _ ?_
  beta_reduce
  rw [← List.append_assoc, ← List.append_assoc, List.append_assoc]
  exact List.perm_append_comm

/-- The matches of a pattern. -/
def hitGo (b : Nat) (g : Nat → Nat) (tl : Nat → List Nat) (down : List Tok → Nat → List Nat → List (List Nat)) :
    List Tok → Nat → List Nat → List (List Nat)
  | [], pos, w => [w ++ tl pos]
  | .bell x :: p, pos, w => if pos > b then [] else if g pos = x then down p (pos + 1) w else []
  | .any :: p, pos, w => if pos > b then [] else down p (pos + 1) (w ++ [g pos])
  | .set l :: p, pos, w => if pos > b then [] else l.flatMap fun x => if g pos = x then down p (pos + 1) w else []
  | .star :: p, pos, w =>
    if pos > b then []
    else if p = [] then [w ++ tl pos]
    else if Tok.star ∉ p then
      (if b - pos = p.length + 1 then down p (pos + 1) (w ++ [g pos]) else down (.star :: p) (pos + 1) (w ++ [g pos]))
    else hitGo b g tl down p pos w ++
      (if width p + 1 ≥ pos then down (.star :: p) (pos + 1) (w ++ [g pos]) else down p (pos + 1) (w ++ [g pos]))

def hits (b : Nat) (g : Nat → Nat) (tl : Nat → List Nat) : (fuel : Nat) → List Tok → Nat → List Nat → List (List Nat)
  | 0, _, _, _ => []
  | fuel + 1, p, pos, w => hitGo b g tl (hits b g tl fuel) p pos w

theorem setLoop_spec {f : MNode → Out MNode} {pos : Nat} {V} (hf : Adds f (pos + 1) V) {cs : List Char} {l : List Nat}
    (h : List.Forall₂ BellChar cs l) (s : List Char) : ∀ fuel, cs.length < fuel →
    Adds (setLoop f fuel (cs ++ ']' :: s)) pos fun g tl w => l.flatMap fun x => if g pos = x then V g tl w else [] := by
  induction h with
  | nil =>
    intro fuel hfu
    obtain ⟨k, rfl⟩ : ∃ k, fuel = k + 1 := ⟨fuel - 1, by simp at hfu; omega⟩
    exact fun n => ⟨n, by simp [setLoop], fun g tl w => by simp⟩
  | @cons c x cs l hc _ ih =>
    intro fuel hfu
    obtain ⟨k, rfl⟩ : ∃ k, fuel = k + 1 := ⟨fuel - 1, by omega⟩
    obtain ⟨h1, -, h3, -⟩ := bellChar hc
    have hne : c ≠ ']' := fun e => h3 (by subst e; decide)
    have := adds_bind (updC_spec hf (x + 1)) (ih k (by simp at hfu; omega))
    intro n
    obtain ⟨n', e, h⟩ := this n
    refine ⟨n', ?_, fun g tl w => ?_⟩
    · rw [List.cons_append, setLoop, if_neg hne, if_pos (Or.inl h1), readExtended_bell hc, Out.ok_bind]
      exact e
    · refine (h g tl w).trans (List.Perm.of_eq ?_)
      beta_reduce
      rw [List.flatMap_cons, if_neg (by omega)]
      congr 2
      simp only [Nat.add_right_cancel_iff, eq_comm (a := x)]

theorem findIdx_set {cs : List Char} {l : List Nat} (h : List.Forall₂ BellChar cs l) (s : List Char) :
    (cs ++ ']' :: s).drop ((cs ++ ']' :: s).findIdx (· == ']') + 1) = s := by
  have : (cs ++ ']' :: s).findIdx (· == ']') = cs.length := by
    induction h with
    | nil => simp [List.findIdx_cons]
    | @cons c x cs l hc _ ih =>
      have h3 := (bellChar hc).2.2.1
      have hne : c ≠ ']' := fun e => h3 (by rw [e]; decide)
      rw [List.cons_append, List.findIdx_cons, beq_false_of_ne hne, ih]
      rfl
  rw [this]
  simp

theorem ones_of_noStar {p : List Tok} (h : Tok.star ∉ p) : ones p = p.length := by
  unfold ones
  rw [List.filter_eq_self.2]
  intro t ht
  simp only [ne_eq, decide_not, Bool.not_eq_eq_eq_not, Bool.not_true, decide_eq_false_iff_not]
  rintro rfl
  exact h ht

theorem addGo_spec {b : Nat} {down : List Char → Nat → Nat → MNode → Out MNode}
    {hd : (Nat → Nat) → (Nat → List Nat) → List Tok → Nat → List Nat → List (List Nat)} {key pos : Nat}
    (H : pos ≤ b → ∀ p s, Spells p s → Adds (down s key (pos + 1)) (pos + 1) fun g tl w => (hd g tl p (pos + 1) w).map (key, ·))
    {p : List Tok} {s : List Char} (h : Spells p s) :
    Adds (addGo b down s key pos) pos fun g tl w => (hitGo b g tl (hd g tl) p pos w).map (key, ·) := by
  induction h with
  | nil => exact fun n => adds_pushKey key pos n
  | @bell c x p s hc hs ih =>
    obtain ⟨h1, -, h3, -⟩ := bellChar hc
    by_cases hp : pos > b
    · exact fun n => by simpa [addGo, hp, hitGo] using adds_id pos n
    · intro n
      obtain ⟨n', e, h⟩ := updC_spec (H (by omega) p s hs) (x + 1) n
      refine ⟨n', ?_, fun g tl w => (h g tl w).trans (List.Perm.of_eq ?_)⟩
      · rw [addGo, if_neg hp, if_pos (Or.inl h1), readExtended_bell hc, Out.ok_bind]; exact e
      · beta_reduce; rw [hitGo, if_neg hp, if_neg (by omega)]
        by_cases hx : g pos = x
        · rw [if_pos hx, if_pos (by omega)]
        · rw [if_neg hx, if_neg (by omega)]; rfl
  | @any p s hs ih =>
    by_cases hp : pos > b
    · exact fun n => by simpa [addGo, hp, hitGo] using adds_id pos n
    · intro n
      obtain ⟨n', e, h⟩ := updC_spec (H (by omega) p s hs) 0 n
      refine ⟨n', ?_, fun g tl w => (h g tl w).trans (List.Perm.of_eq ?_)⟩
      · rw [addGo, if_neg hp, if_neg (by decide), if_pos rfl]; exact e
      · beta_reduce; rw [hitGo, if_neg hp, if_pos rfl]
  | @set cs l p s hl hs ih =>
    by_cases hp : pos > b
    · exact fun n => by simpa [addGo, hp, hitGo] using adds_id pos n
    · intro n
      obtain ⟨n', e, h⟩ := setLoop_spec (H (by omega) p s hs) hl s ((cs ++ ']' :: s).length + 1) (by simp; omega) n
      refine ⟨n', ?_, fun g tl w => (h g tl w).trans (List.Perm.of_eq ?_)⟩
      · rw [addGo, if_neg hp, if_neg (by decide), if_neg (by decide), if_pos rfl, findIdx_set hl]; exact e
      · beta_reduce; rw [hitGo, if_neg hp, List.map_flatMap]
        congr 1
        apply List.flatMap_congr
        intro x _
        split <;> rfl
  | @star p s hs ih =>
    by_cases hp : pos > b
    · exact fun n => by simpa [addGo, hp, hitGo] using adds_id pos n
    · by_cases hn : p = []
      · have hsn := (spells_nil hs).2 hn
        intro n
        obtain ⟨n', e, h⟩ := adds_pushKey key pos n
        refine ⟨n', ?_, fun g tl w => (h g tl w).trans (List.Perm.of_eq ?_)⟩
        · rw [addGo, if_neg hp, if_neg (by decide), if_neg (by decide), if_neg (by decide), if_pos rfl, if_pos hsn]; exact e
        · beta_reduce; rw [hitGo, if_neg hp, if_pos hn]; rfl
      · have hsn : s ≠ [] := fun e => hn ((spells_nil hs).1 e)
        by_cases hst : Tok.star ∈ p
        · have hct : s.contains '*' ≠ false := by rw [(spells_star hs).2 hst]; simp
          have hlen : ('*' :: s).length = width p + 1 := by rw [List.length_cons, spells_length hs]
          intro n
          have key2 : ∃ f : MNode → Out MNode, (∀ n', (if ('*' :: s).length ≥ pos then updC 0 (down ('*' :: s) key (pos + 1)) n'
              else updC 0 (down s key (pos + 1)) n') = f n') ∧ Adds f pos fun g tl w =>
              (if width p + 1 ≥ pos then hd g tl (.star :: p) (pos + 1) (w ++ [g pos]) else hd g tl p (pos + 1) (w ++ [g pos])).map (key, ·) := by
            by_cases hw : width p + 1 ≥ pos
            · refine ⟨updC 0 (down ('*' :: s) key (pos + 1)), fun n' => by rw [hlen, if_pos hw], ?_⟩
              refine adds_congr (updC_spec (H (by omega) _ _ (.star hs)) 0) fun g tl w => ?_
              beta_reduce; rw [if_pos rfl, if_pos hw]
            · refine ⟨updC 0 (down s key (pos + 1)), fun n' => by rw [hlen, if_neg hw], ?_⟩
              refine adds_congr (updC_spec (H (by omega) _ _ hs) 0) fun g tl w => ?_
              beta_reduce; rw [if_pos rfl, if_neg hw]
          obtain ⟨f, hf1, hf2⟩ := key2
          obtain ⟨n', e, h⟩ := adds_bind ih hf2 n
          refine ⟨n', ?_, fun g tl w => (h g tl w).trans (List.Perm.of_eq ?_)⟩
          · rw [addGo, if_neg hp, if_neg (by decide), if_neg (by decide), if_neg (by decide), if_pos rfl, if_neg hsn,
              if_neg hct]
            simp only [hf1]; exact e
          · beta_reduce; rw [hitGo, if_neg hp, if_neg hn, if_neg (fun h' : Tok.star ∉ p => h' hst), List.map_append]
        · have hct : s.contains '*' = false := by
            rw [← Bool.not_eq_true, spells_star hs]; exact hst
          have hcb : Wildcard.countBells ('*' :: s) = p.length := by
            rw [spells_count (.star hs)]
            have := ones_of_noStar hst
            unfold ones at this ⊢
            rw [List.filter_cons_of_neg (by simp), this]
          intro n
          by_cases hb : b - pos = p.length + 1
          · obtain ⟨n', e, h⟩ := updC_spec (H (by omega) _ _ hs) 0 n
            refine ⟨n', ?_, fun g tl w => (h g tl w).trans (List.Perm.of_eq ?_)⟩
            · rw [addGo, if_neg hp, if_neg (by decide), if_neg (by decide), if_neg (by decide), if_pos rfl, if_neg hsn,
                if_pos hct, hcb, if_pos hb]; exact e
            · beta_reduce; rw [hitGo, if_neg hp, if_neg hn, if_pos hst, if_pos hb, if_pos rfl]
          · obtain ⟨n', e, h⟩ := updC_spec (H (by omega) _ _ (.star hs)) 0 n
            refine ⟨n', ?_, fun g tl w => (h g tl w).trans (List.Perm.of_eq ?_)⟩
            · rw [addGo, if_neg hp, if_neg (by decide), if_neg (by decide), if_neg (by decide), if_pos rfl, if_neg hsn,
                if_pos hct, hcb, if_neg hb]; exact e
            · beta_reduce; rw [hitGo, if_neg hp, if_neg hn, if_pos hst, if_neg hb, if_pos rfl]

/-- Adding a pattern to the tree adds its matches to those of the tree. -/
theorem addC_spec {b : Nat} : ∀ {fuel pos : Nat}, b + 1 < fuel + pos → 0 < fuel → ∀ {p : List Tok} {s : List Char}, Spells p s → ∀ key,
    Adds (addC b fuel s key pos) pos fun g tl w => (hits b g tl fuel p pos w).map (key, ·) := by
  intro fuel
  induction fuel with
  | zero => omega
  | succ fuel ih =>
    intro pos hf _ p s hs key
    refine fun n => addGo_spec (hd := fun g tl => hits b g tl fuel) (fun hp p s hs => ih (by omega) (by omega) hs key) hs n

end MNode
end Ringing
