import Verif.Model.RowCalc
import Verif.Props.Group
import Verif.Props.RowCore

namespace Ringing
open Row
namespace RowCalc

/-- A node with one row, which it gives again and again. -/
def Scal (M : Mach) (r : Row) : Prop :=
  M.vec = 0 ∧ ∃ S : M.σ → Prop, S M.init ∧ (∀ s, S s → ∃ s', M.eval s = .ok (some r, s') ∧ S s') ∧ ∀ s, S s → S (M.restart s)

/-- A node that gives the rows `L`: `F` at the start, `Q` at the end, and `P K` where the rows `K` are left. -/
structure VecP (M : Mach) (L : List Row) (re : Prop) (F Q : M.σ → Prop) (P : List Row → M.σ → Prop) : Prop where
  init : F M.init
  start : ∀ s, F s → P L s
  step : ∀ s r K, P (r :: K) s → ∃ s', M.eval s = .ok (some r, s') ∧ P K s'
  stop : ∀ s, P [] s → ∃ s', M.eval s = .ok (none, s') ∧ Q s'
  again : re → ∀ s, F s ∨ Q s → F (M.restart s)

def Vect (M : Mach) (L : List Row) (re : Prop) : Prop := M.vec ≠ 0 ∧ ∃ F Q P, VecP M L re F Q P

theorem VecP.drain {M : Mach} {L : List Row} {re : Prop} {F Q : M.σ → Prop} {P : List Row → M.σ → Prop} (h : VecP M L re F Q P) :
    ∀ (K : List Row) (s : M.σ) (fuel : Nat), P K s → K.length < fuel → ∃ s', drainC M fuel s = .ok (K, s') ∧ Q s' := by
  intro K
  induction K with
  | nil =>
    intro s fuel hp hf
    obtain ⟨f, rfl⟩ : ∃ f, fuel = f + 1 := ⟨fuel - 1, by omega⟩
    obtain ⟨s', e, q⟩ := h.stop s hp
    exact ⟨s', by rw [drainC, e]; rfl, q⟩
  | cons r K ih =>
    intro s fuel hp hf
    obtain ⟨f, rfl⟩ : ∃ f, fuel = f + 1 := ⟨fuel - 1, by omega⟩
    obtain ⟨s', e, q⟩ := h.step s r K hp
    obtain ⟨s'', e2, q2⟩ := ih s' f q (by simp only [List.length_cons] at hf; omega)
    exact ⟨s'', by rw [drainC, e]; simp only [Out.ok_bind]; rw [e2]; rfl, q2⟩

theorem scal_row (r : Row) : Scal (rowM r) r := ⟨rfl, fun _ => True, trivial, fun _ _ => ⟨(), rfl, trivial⟩, fun _ _ => trivial⟩

theorem vect_exec (rows : List Row) : Vect (execM rows) rows True := by
  refine ⟨Nat.one_ne_zero, fun i => i = (0 : Nat), fun _ => True, fun K (i : Nat) => K = rows.drop i, ?_, ?_, ?_, ?_, ?_⟩
  · rfl
  · rintro s rfl; exact (List.drop_zero).symm
  · intro (i : Nat) r K h
    have h1 : rows[i]? = some r := by
      have : (rows.drop i)[0]? = some r := by rw [← h]; rfl
      simpa using this
    refine ⟨(i + 1 : Nat), ?_, ?_⟩
    · show (match rows[i]? with | some r => Out.ok (some r, i + 1) | none => Out.ok (none, i)) = _
      rw [h1]; rfl
    · have : (rows.drop i).tail = rows.drop (i + 1) := by simp
      rw [← this, ← h]; rfl
  · intro (i : Nat) h
    have h1 : rows[i]? = none := by
      have := congrArg List.length h
      simp at this
      rw [List.getElem?_eq_none]; omega
    refine ⟨i, ?_, trivial⟩
    show (match rows[i]? with | some r => Out.ok (some r, i + 1) | none => Out.ok (none, i)) = _
    rw [h1]; rfl
  · intro _ s _; rfl

theorem vect_nil : Vect nilM [] True :=
  ⟨Nat.one_ne_zero, fun _ => True, fun _ => True, fun K _ => K = [], trivial, fun _ _ => rfl,
    fun _ _ _ h => by simp at h, fun _ _ => ⟨(), rfl, trivial⟩, fun _ _ _ => trivial⟩

theorem cons_past {M R : Mach} {m : M.σ} {t : R.σ} {p : Option Row × R.σ} (h : R.eval t = .ok p) :
    (consM M R).eval (true, m, t) = .ok (p.1, (true, m, p.2)) := by
  show (R.eval t >>= fun p => Out.ok (p.1, ((true, m, p.2) : Bool × M.σ × R.σ))) = _
  rw [h]; rfl

theorem cons_scal {M R : Mach} {m : M.σ} {t : R.σ} {p : Option Row × M.σ} (h0 : M.vec = 0) (h : M.eval m = .ok p) :
    (consM M R).eval (false, m, t) = .ok (p.1, (true, p.2, t)) := by
  simp [consM, h, h0]

theorem cons_some {M R : Mach} {m m' : M.σ} {t : R.σ} {r : Row} (h0 : M.vec ≠ 0) (h : M.eval m = .ok (some r, m')) :
    (consM M R).eval (false, m, t) = .ok (some r, (false, m', t)) := by
  simp [consM, h, h0]

theorem cons_none {M R : Mach} {m m' : M.σ} {t : R.σ} {q : Option Row × R.σ} (h0 : M.vec ≠ 0) (h : M.eval m = .ok (none, m'))
    (h2 : R.eval t = .ok q) : (consM M R).eval (false, m, t) = .ok (q.1, (true, m', q.2)) := by
  simp [consM, h, h0, h2]

theorem vect_cons_scal {M R : Mach} {r : Row} {L : List Row} {re : Prop} (hM : Scal M r) (hR : Vect R L re) :
    Vect (consM M R) (r :: L) re := by
  obtain ⟨m0, S, s1, s2, s3⟩ := hM
  obtain ⟨r0, F, Q, P, h⟩ := hR
  refine ⟨?_, fun s => s.1 = false ∧ S s.2.1 ∧ F s.2.2, fun s => S s.2.1 ∧ Q s.2.2,
    fun K s => S s.2.1 ∧ ((s.1 = true ∧ P K s.2.2) ∨ (s.1 = false ∧ F s.2.2 ∧ K = r :: L)), ?_, ?_, ?_, ?_, ?_⟩
  · show R.vec + _ ≠ 0; omega
  · exact ⟨rfl, s1, h.init⟩
  · rintro s ⟨a, b, c⟩; exact ⟨b, Or.inr ⟨a, c, rfl⟩⟩
  · rintro ⟨fl, m, t⟩ r' K ⟨hS, ⟨rfl, hp⟩ | ⟨rfl, hf, hk⟩⟩
    · obtain ⟨t', e, hp'⟩ := h.step t r' K hp
      exact ⟨(true, m, t'), cons_past e, hS, Or.inl ⟨rfl, hp'⟩⟩
    · cases hk
      obtain ⟨m', e, hS'⟩ := s2 m hS
      exact ⟨(true, m', t), cons_scal m0 e, hS', Or.inl ⟨rfl, h.start t hf⟩⟩
  · rintro ⟨fl, m, t⟩ ⟨hS, ⟨rfl, hp⟩ | ⟨rfl, hf, hk⟩⟩
    · obtain ⟨t', e, hq⟩ := h.stop t hp
      exact ⟨(true, m, t'), cons_past e, hS, hq⟩
    · cases hk
  · rintro hre ⟨fl, m, t⟩ (⟨-, hS, hF⟩ | ⟨hS, hQ⟩)
    · exact ⟨rfl, hS, h.again hre t (Or.inl hF)⟩
    · exact ⟨rfl, hS, h.again hre t (Or.inr hQ)⟩

theorem vect_cons_vect {M R : Mach} {K0 L : List Row} {re re' : Prop} (hM : Vect M K0 re') (hR : Vect R L re) :
    Vect (consM M R) (K0 ++ L) False := by
  obtain ⟨m0, F', Q', P', h'⟩ := hM
  obtain ⟨r0, F, Q, P, h⟩ := hR
  refine ⟨?_, fun s => s.1 = false ∧ F' s.2.1 ∧ F s.2.2, fun _ => True,
    fun K s => (s.1 = true ∧ P K s.2.2) ∨ (s.1 = false ∧ F s.2.2 ∧ ∃ K1, P' K1 s.2.1 ∧ K = K1 ++ L), ?_, ?_, ?_, ?_, ?_⟩
  · show R.vec + _ ≠ 0; omega
  · exact ⟨rfl, h'.init, h.init⟩
  · rintro s ⟨a, b, c⟩; exact Or.inr ⟨a, c, K0, h'.start _ b, rfl⟩
  · rintro ⟨fl, m, t⟩ r' K (⟨rfl, hp⟩ | ⟨rfl, hf, K1, hp, hk⟩)
    · obtain ⟨t', e, hp'⟩ := h.step t r' K hp
      exact ⟨(true, m, t'), cons_past e, Or.inl ⟨rfl, hp'⟩⟩
    · cases K1 with
      | cons r1 K1 =>
        rw [List.cons_append, List.cons.injEq] at hk
        obtain ⟨rfl, rfl⟩ := hk
        obtain ⟨m', e, hp'⟩ := h'.step m r' K1 hp
        exact ⟨(false, m', t), cons_some m0 e, Or.inr ⟨rfl, hf, K1, hp', rfl⟩⟩
      | nil =>
        rw [List.nil_append] at hk
        obtain ⟨m', e, -⟩ := h'.stop m hp
        obtain ⟨t', e2, hp'⟩ := h.step t r' K (by rw [hk]; exact h.start t hf)
        exact ⟨(true, m', t'), cons_none m0 e e2, Or.inl ⟨rfl, hp'⟩⟩
  · rintro ⟨fl, m, t⟩ (⟨rfl, hp⟩ | ⟨rfl, hf, K1, hp, hk⟩)
    · obtain ⟨t', e, hp'⟩ := h.stop t hp
      exact ⟨(true, m, t'), cons_past e, trivial⟩
    · obtain ⟨rfl, hL⟩ := List.append_eq_nil_iff.1 hk.symm
      obtain ⟨m', e, -⟩ := h'.stop m hp
      obtain ⟨t', e2, hp'⟩ := h.stop t (by rw [← hL]; exact h.start t hf)
      exact ⟨(true, m', t'), cons_none m0 e e2, trivial⟩
  · intro h; exact h.elim

theorem vect_group {S : Mach} {L : List Row} {re : Prop} {g : Group} {fuel : Nat} (hS : Vect S L re)
    (hg : Group.ofVectorC L = .ok g) (hf : L.length < fuel) : Vect (groupM fuel S) g.v re := by
  obtain ⟨v0, F, Q, P, h⟩ := hS
  refine ⟨v0, fun s => s.2 = none ∧ F s.1, fun s => Q s.1,
    fun K s => (s.2 = none ∧ F s.1 ∧ K = g.v) ∨ (s.2 = some K ∧ Q s.1), ?_, ?_, ?_, ?_, ?_⟩
  · exact ⟨rfl, h.init⟩
  · rintro s ⟨a, b⟩; exact Or.inl ⟨a, b, rfl⟩
  · rintro ⟨s, o⟩ r K (⟨h1, hF, hk⟩ | ⟨h1, hQ⟩)
    · cases h1
      obtain ⟨s', e, hq⟩ := h.drain L s fuel (h.start s hF) hf
      refine ⟨(s', some K), ?_, Or.inr ⟨rfl, hq⟩⟩
      show ((drainC S fuel s >>= fun p => Group.ofVectorC p.1 >>= fun g => Out.ok (p.2, g.v)) >>= _) = _
      rw [e]; simp only [Out.ok_bind]; rw [hg]; simp only [Out.ok_bind]
      rw [← hk]; rfl
    · cases h1
      exact ⟨(s, some K), rfl, Or.inr ⟨rfl, hQ⟩⟩
  · rintro ⟨s, o⟩ (⟨h1, hF, hk⟩ | ⟨h1, hQ⟩)
    · cases h1
      obtain ⟨s', e, hq⟩ := h.drain L s fuel (h.start s hF) hf
      refine ⟨(s', some []), ?_, hq⟩
      show ((drainC S fuel s >>= fun p => Group.ofVectorC p.1 >>= fun g => Out.ok (p.2, g.v)) >>= _) = _
      rw [e]; simp only [Out.ok_bind]; rw [hg]; simp only [Out.ok_bind]
      rw [← hk]; rfl
    · cases h1
      exact ⟨(s, some []), rfl, hQ⟩
  · rintro hre ⟨s, o⟩ (⟨-, hF⟩ | hQ)
    · exact ⟨rfl, h.again hre s (Or.inl hF)⟩
    · exact ⟨rfl, h.again hre s (Or.inr hQ)⟩

/-! ### Binary operators -/

variable {fuel : Nat} {both : Bool} {op : Row → Row → Out Row} {f : Row → Row → Row} {A B : Mach}

theorem bin_eval {s s' : A.σ × B.σ × Row} {x y z : Row} (h : argsC fuel A B s = .ok (some (x, y), s')) (hop : op x y = .ok z) :
    (binM fuel both op A B).eval s = .ok (some z, s') := by
  simp [binM, h, hop]

theorem bin_none {s s' : A.σ × B.σ × Row} (h : argsC fuel A B s = .ok (none, s')) :
    (binM fuel both op A B).eval s = .ok (none, s') := by
  simp [binM, h]

theorem args_scal {a a' : A.σ} {b b' : B.σ} {r x y : Row} (h0 : A.vec = 0 ∨ B.vec = 0) (hb : B.eval b = .ok (some y, b'))
    (ha : A.eval a = .ok (some x, a')) : argsC fuel A B (a, b, r) = .ok (some (x, y), (a', b', y)) := by
  simp [argsC, h0, hb, ha]

theorem args_none_right {a : A.σ} {b b' : B.σ} {r : Row} (h0 : A.vec = 0 ∨ B.vec = 0) (hb : B.eval b = .ok (none, b')) :
    argsC fuel A B (a, b, r) = .ok (none, (a, b', r)) := by
  simp [argsC, h0, hb]

theorem args_none_left {a a' : A.σ} {b b' : B.σ} {r y : Row} (h0 : A.vec = 0 ∨ B.vec = 0) (hb : B.eval b = .ok (some y, b'))
    (ha : A.eval a = .ok (none, a')) : argsC fuel A B (a, b, r) = .ok (none, (a', b', y)) := by
  simp [argsC, h0, hb, ha]

theorem scal_bin {x y : Row} (hA : Scal A x) (hB : Scal B y) (hop : op x y = .ok (f x y)) :
    Scal (binM fuel both op A B) (f x y) := by
  obtain ⟨a0, S, s1, s2, s3⟩ := hA
  obtain ⟨b0, S', t1, t2, t3⟩ := hB
  refine ⟨by show A.vec + B.vec = 0; omega, fun s => S s.1 ∧ S' s.2.1, ⟨s1, t1⟩, ?_, ?_⟩
  · rintro ⟨a, b, r⟩ ⟨ha, hb⟩
    obtain ⟨a', e1, ha'⟩ := s2 a ha
    obtain ⟨b', e2, hb'⟩ := t2 b hb
    exact ⟨(a', b', y), bin_eval (args_scal (Or.inl a0) e2 e1) hop, ha', hb'⟩
  · rintro ⟨a, b, r⟩ ⟨ha, hb⟩
    refine ⟨s3 a ha, ?_⟩
    show S' (if both then B.restart b else b)
    cases both
    · exact hb
    · exact t3 b hb

theorem vect_bin_right {x : Row} {L : List Row} {re : Prop} (hA : Scal A x) (hB : Vect B L re)
    (hop : ∀ y ∈ L, op x y = .ok (f x y)) :
    Vect (binM fuel both op A B) (L.map fun y => f x y) (both = true ∧ re) := by
  obtain ⟨a0, S, s1, s2, s3⟩ := hA
  obtain ⟨b0, F, Q, P, h⟩ := hB
  refine ⟨by show A.vec + B.vec ≠ 0; omega, fun s => S s.1 ∧ F s.2.1, fun s => S s.1 ∧ Q s.2.1,
    fun K s => S s.1 ∧ ∃ K', P K' s.2.1 ∧ K = K'.map (fun y => f x y) ∧ ∀ y ∈ K', y ∈ L, ⟨s1, h.init⟩, ?_, ?_, ?_, ?_⟩
  · rintro s ⟨ha, hb⟩; exact ⟨ha, L, h.start _ hb, rfl, fun y hy => hy⟩
  · rintro ⟨a, b, r⟩ r' K ⟨ha, K', hp, hk, hm⟩
    cases K' with
    | nil => cases hk
    | cons y K' =>
      rw [List.map_cons, List.cons.injEq] at hk
      obtain ⟨rfl, rfl⟩ := hk
      obtain ⟨b', e2, hp'⟩ := h.step b y K' hp
      obtain ⟨a', e1, ha'⟩ := s2 a ha
      exact ⟨(a', b', y), bin_eval (args_scal (Or.inl a0) e2 e1) (hop y (hm y (by simp))), ha', K', hp', rfl,
        fun z hz => hm z (by simp [hz])⟩
  · rintro ⟨a, b, r⟩ ⟨ha, K', hp, hk, hm⟩
    obtain rfl := List.map_eq_nil_iff.1 hk.symm
    obtain ⟨b', e2, hq⟩ := h.stop b hp
    exact ⟨(a, b', r), bin_none (args_none_right (Or.inl a0) e2), ha, hq⟩
  · rintro ⟨rfl, hre⟩ ⟨a, b, r⟩ (⟨ha, hb⟩ | ⟨ha, hb⟩)
    · exact ⟨s3 a ha, h.again hre b (Or.inl hb)⟩
    · exact ⟨s3 a ha, h.again hre b (Or.inr hb)⟩

theorem vect_bin_left {y : Row} {L : List Row} {re : Prop} (hA : Vect A L re) (hB : Scal B y)
    (hop : ∀ x ∈ L, op x y = .ok (f x y)) :
    Vect (binM fuel both op A B) (L.map fun x => f x y) re := by
  obtain ⟨b0, S, s1, s2, s3⟩ := hB
  obtain ⟨a0, F, Q, P, h⟩ := hA
  refine ⟨by show A.vec + B.vec ≠ 0; omega, fun s => F s.1 ∧ S s.2.1, fun s => Q s.1 ∧ S s.2.1,
    fun K s => S s.2.1 ∧ ∃ K', P K' s.1 ∧ K = K'.map (fun x => f x y) ∧ ∀ x ∈ K', x ∈ L, ⟨h.init, s1⟩, ?_, ?_, ?_, ?_⟩
  · rintro s ⟨ha, hb⟩; exact ⟨hb, L, h.start _ ha, rfl, fun y hy => hy⟩
  · rintro ⟨a, b, r⟩ r' K ⟨hb, K', hp, hk, hm⟩
    cases K' with
    | nil => cases hk
    | cons x K' =>
      rw [List.map_cons, List.cons.injEq] at hk
      obtain ⟨rfl, rfl⟩ := hk
      obtain ⟨a', e1, hp'⟩ := h.step a x K' hp
      obtain ⟨b', e2, hb'⟩ := s2 b hb
      exact ⟨(a', b', y), bin_eval (args_scal (Or.inr b0) e2 e1) (hop x (hm x (by simp))), hb', K', hp', rfl,
        fun z hz => hm z (by simp [hz])⟩
  · rintro ⟨a, b, r⟩ ⟨hb, K', hp, hk, hm⟩
    obtain rfl := List.map_eq_nil_iff.1 hk.symm
    obtain ⟨a', e1, hq⟩ := h.stop a hp
    obtain ⟨b', e2, hb'⟩ := s2 b hb
    exact ⟨(a', b', y), bin_none (args_none_left (Or.inr b0) e2 e1), hq, hb'⟩
  · rintro hre ⟨a, b, r⟩ hs
    have hb : S b := hs.elim (fun h => h.2) (fun h => h.2)
    refine ⟨h.again hre a (hs.elim (fun h => Or.inl h.1) (fun h => Or.inr h.1)), ?_⟩
    show S (if both then B.restart b else b)
    cases both
    · exact hb
    · exact s3 b hb

/-- All products, the right-hand side varying slowest. -/
def prods (f : Row → Row → Row) (LA LB : List Row) : List Row := LB.flatMap fun y => LA.map fun x => f x y

theorem cross_run {LA : List Row} {reA : Prop} {FA QA : A.σ → Prop} {PA : List Row → A.σ → Prop} (hA : VecP A LA reA FA QA PA)
    (hre : reA) {LB : List Row} {reB : Prop} {FB QB : B.σ → Prop} {PB : List Row → B.σ → Prop} (hB : VecP B LB reB FB QB PB) :
    ∀ (KB : List Row) (a : A.σ) (b : B.σ) (fuel : Nat), FA a → PB KB b → (∀ y ∈ KB, y.length ≠ 0) → KB.length < fuel →
    (prods f LA KB = [] ∧ ∃ a' b', crossLoop A B fuel (a, b, []) = .ok (none, (a', b', [])) ∧ FA a' ∧ QB b') ∨
    (∃ x y KA KB' a' b', (prods f LA KB = f x y :: (KA.map (fun x => f x y) ++ prods f LA KB')) ∧ x ∈ LA ∧ (∀ z ∈ KA, z ∈ LA) ∧
      y ∈ KB ∧ (∀ z ∈ KB', z ∈ KB) ∧ KB'.length ≤ KB.length ∧
      crossLoop A B fuel (a, b, []) = .ok (some (x, y), (a', b', y)) ∧ PA KA a' ∧ PB KB' b') := by
  intro KB
  induction KB with
  | nil =>
    intro a b fuel ha hb _ hf
    obtain ⟨fu, rfl⟩ : ∃ fu, fuel = fu + 1 := ⟨fuel - 1, by omega⟩
    obtain ⟨b', e, hq⟩ := hB.stop b hb
    refine Or.inl ⟨rfl, a, b', ?_, ha, hq⟩
    rw [crossLoop]
    simp only [List.length_nil, if_true, e, Out.ok_bind]
  | cons y KB ih =>
    intro a b fuel ha hb hy hf
    obtain ⟨fu, rfl⟩ : ∃ fu, fuel = fu + 1 := ⟨fuel - 1, by omega⟩
    obtain ⟨b', e, hb'⟩ := hB.step b y KB hb
    have hp := hA.start a ha
    have key : crossLoop A B (fu + 1) (a, b, []) = (A.eval a >>= fun q => match q.1 with
        | some l => if y.length = 0 then crossLoop A B fu (q.2, b', y) else .ok (some (l, y), (q.2, b', y))
        | none => crossLoop A B fu (A.restart q.2, b', [])) := by
      rw [crossLoop]
      simp only [List.length_nil, if_true, e, Out.ok_bind]
      rfl
    rw [key]
    have hy0 := hy y (by simp)
    generalize hLA : LA = LA' at hp
    cases LA' with
    | cons x KA =>
      obtain ⟨a', e1, hp'⟩ := hA.step a x KA hp
      refine Or.inr ⟨x, y, KA, KB, a', b', ?_, by simp, fun z hz => by simp [hz], by simp, fun z hz => by simp [hz], by simp, ?_, hp', hb'⟩
      · simp [prods]
      · rw [e1]; simp only [Out.ok_bind]; rw [if_neg hy0]
    | nil =>
      obtain ⟨a', e1, hq⟩ := hA.stop a hp
      rw [e1]
      simp only [Out.ok_bind]
      have := ih (A.restart a') b' fu (hA.again hre a' (Or.inr hq)) hb' (fun z hz => hy z (by simp [hz]))
        (by simp only [List.length_cons] at hf; omega)
      rw [hLA] at this
      rcases this with ⟨h1, h2⟩ | ⟨x, z, KA, KB', c, d, h1, h2, -⟩
      · exact Or.inl ⟨by simp [prods], h2⟩
      · simp at h2

theorem vect_bin {LA LB : List Row} {reA reB : Prop} (hA : Vect A LA reA) (hB : Vect B LB reB) (hre : reA)
    (hne : ∀ y ∈ LB, y.length ≠ 0) (hf : LB.length + 1 < fuel) (hop : ∀ x ∈ LA, ∀ y ∈ LB, op x y = .ok (f x y)) :
    Vect (binM fuel both op A B) (prods f LA LB) (both = true ∧ reB) := by
  obtain ⟨a0, FA, QA, PA, hA⟩ := hA
  obtain ⟨b0, FB, QB, PB, hB⟩ := hB
  have hargs : ∀ s, argsC fuel A B s = crossLoop A B fuel s := by
    intro s; rw [argsC, if_neg (by omega)]
  have start : ∀ (fu : Nat) (K : List Row) (a : A.σ) (b : B.σ) (KB : List Row), FA a → PB KB b → (∀ y ∈ KB, y ∈ LB) → KB.length < fu →
      K = prods f LA KB → 
      (K = [] ∧ ∃ a' b', crossLoop A B fu (a, b, []) = .ok (none, (a', b', [])) ∧ FA a' ∧ QB b') ∨
      (∃ r K2 x y KA KB' a' b', K = r :: K2 ∧ op x y = .ok r ∧ K2 = KA.map (fun x => f x y) ++ prods f LA KB' ∧ (∀ z ∈ KA, z ∈ LA) ∧
        y ∈ LB ∧ (∀ z ∈ KB', z ∈ LB) ∧ KB'.length ≤ KB.length ∧
        crossLoop A B fu (a, b, []) = .ok (some (x, y), (a', b', y)) ∧ PA KA a' ∧ PB KB' b') := by
    intro fu K a b KB ha hb hm hl hK
    rcases cross_run (f := f) hA hre hB KB a b fu ha hb (fun y hy => hne y (hm y hy)) hl with ⟨h1, h2⟩ | ⟨x, y, KA, KB', a', b', h1, h2, h3, h4, h5, h6, h7, h8, h9⟩
    · exact Or.inl ⟨by rw [hK, h1], h2⟩
    · exact Or.inr ⟨_, _, x, y, KA, KB', a', b', by rw [hK, h1], hop x h2 y (hm y h4), rfl, h3, hm y h4, fun z hz => hm z (h5 z hz), h6, h7, h8, h9⟩
  refine ⟨by show A.vec + B.vec ≠ 0; omega, fun s => FA s.1 ∧ FB s.2.1 ∧ s.2.2 = [], fun s => FA s.1 ∧ QB s.2.1 ∧ s.2.2 = [],
    fun K s => (FA s.1 ∧ s.2.2 = [] ∧ ∃ KB, PB KB s.2.1 ∧ (∀ y ∈ KB, y ∈ LB) ∧ KB.length ≤ LB.length ∧ K = prods f LA KB) ∨
      (∃ KA KB, PA KA s.1 ∧ PB KB s.2.1 ∧ (∀ x ∈ KA, x ∈ LA) ∧ s.2.2 ∈ LB ∧ (∀ y ∈ KB, y ∈ LB) ∧ KB.length ≤ LB.length ∧
        K = KA.map (fun x => f x s.2.2) ++ prods f LA KB), ⟨hA.init, hB.init, rfl⟩, ?_, ?_, ?_, ?_⟩
  · rintro ⟨a, b, r⟩ ⟨ha, hb, hr⟩
    exact Or.inl ⟨ha, hr, LB, hB.start b hb, fun y hy => hy, le_rfl, rfl⟩
  · -- a step
    have fromStart : ∀ (fu : Nat) (a : A.σ) (b : B.σ) (KB : List Row) (r' : Row) (K : List Row), FA a → PB KB b → (∀ y ∈ KB, y ∈ LB) →
        KB.length ≤ LB.length → KB.length < fu → r' :: K = prods f LA KB →
        ∃ s' : A.σ × B.σ × Row, (crossLoop A B fu (a, b, []) >>= fun p => match p.1 with
          | none => .ok (none, p.2) | some x => op x.1 x.2 >>= fun r => .ok (some r, p.2)) = .ok (some r', s') ∧
        (∃ KA KB, PA KA s'.1 ∧ PB KB s'.2.1 ∧ (∀ x ∈ KA, x ∈ LA) ∧ s'.2.2 ∈ LB ∧ (∀ y ∈ KB, y ∈ LB) ∧ KB.length ≤ LB.length ∧
          K = KA.map (fun x => f x s'.2.2) ++ prods f LA KB) := by
      intro fu a b KB r' K ha hb hm hlen hl hk
      rcases start fu _ a b KB ha hb hm hl hk with ⟨h1, -⟩ | ⟨r, K2, x, y, KA, KB', a', b', h1, h2, h3, h4, h5, h6, h7, h8, h9, h10⟩
      · cases h1
      · rw [List.cons.injEq] at h1
        obtain ⟨rfl, rfl⟩ := h1
        refine ⟨(a', b', y), ?_, KA, KB', h9, h10, h4, h5, h6, by omega, h3⟩
        rw [h8]; simp only [Out.ok_bind]; rw [h2]; rfl
    rintro ⟨a, b, r⟩ r' K (⟨ha, hr, KB, hb, hm, hl, hk⟩ | ⟨KA, KB, ha, hb, hma, hr, hm, hl, hk⟩)
    · cases hr
      obtain ⟨s', e, h⟩ := fromStart fuel a b KB r' K ha hb hm hl (by omega) hk
      refine ⟨s', ?_, Or.inr h⟩
      show (argsC fuel A B (a, b, []) >>= _) = _
      rw [hargs]; exact e
    · have hr0 : r.length ≠ 0 := hne r hr
      obtain ⟨fu, rfl⟩ : ∃ fu, fuel = fu + 1 := ⟨fuel - 1, by omega⟩
      cases KA with
      | cons x KA =>
        rw [List.map_cons, List.cons_append, List.cons.injEq] at hk
        obtain ⟨rfl, rfl⟩ := hk
        obtain ⟨a', e, ha'⟩ := hA.step a x KA ha
        refine ⟨(a', b, r), ?_, Or.inr ⟨KA, KB, ha', hb, fun z hz => hma z (by simp [hz]), hr, hm, hl, rfl⟩⟩
        show (argsC (fu + 1) A B (a, b, r) >>= _) = _
        rw [hargs, crossLoop, if_neg hr0]
        simp only [Out.ok_bind]
        rw [e]
        simp only [Out.ok_bind]
        rw [if_neg hr0]
        simp only [Out.ok_bind]
        rw [hop x (hma x (by simp)) r hr]; rfl
      | nil =>
        rw [List.map_nil, List.nil_append] at hk
        obtain ⟨a', e, hq⟩ := hA.stop a ha
        obtain ⟨s', e2, h⟩ := fromStart fu (A.restart a') b KB r' K (hA.again hre a' (Or.inr hq)) hb hm hl (by omega) hk
        refine ⟨s', ?_, Or.inr h⟩
        show (argsC (fu + 1) A B (a, b, r) >>= _) = _
        rw [hargs, crossLoop, if_neg hr0]
        simp only [Out.ok_bind]
        rw [e]
        exact e2
  · -- the end
    have fromStart : ∀ (fu : Nat) (a : A.σ) (b : B.σ) (KB : List Row), FA a → PB KB b → (∀ y ∈ KB, y ∈ LB) →
        KB.length < fu → [] = prods f LA KB →
        ∃ s' : A.σ × B.σ × Row, (crossLoop A B fu (a, b, []) >>= fun p => match p.1 with
          | none => .ok (none, p.2) | some x => op x.1 x.2 >>= fun r => .ok (some r, p.2)) = .ok (none, s') ∧
        FA s'.1 ∧ QB s'.2.1 ∧ s'.2.2 = [] := by
      intro fu a b KB ha hb hm hl hk
      rcases start fu _ a b KB ha hb hm hl hk with ⟨-, a', b', e, h1, h2⟩ | ⟨r, K2, x, y, KA, KB', a', b', h1, -⟩
      · exact ⟨(a', b', []), by rw [e]; rfl, h1, h2, rfl⟩
      · cases h1
    rintro ⟨a, b, r⟩ (⟨ha, hr, KB, hb, hm, hl, hk⟩ | ⟨KA, KB, ha, hb, hma, hr, hm, hl, hk⟩)
    · cases hr
      obtain ⟨s', e, h⟩ := fromStart fuel a b KB ha hb hm (by omega) hk
      refine ⟨s', ?_, h⟩
      show (argsC fuel A B (a, b, []) >>= _) = _
      rw [hargs]; exact e
    · have hr0 : r.length ≠ 0 := hne r hr
      obtain ⟨fu, rfl⟩ : ∃ fu, fuel = fu + 1 := ⟨fuel - 1, by omega⟩
      obtain ⟨h1, h2⟩ := List.append_eq_nil_iff.1 hk.symm
      obtain rfl := List.map_eq_nil_iff.1 h1
      obtain ⟨a', e, hq⟩ := hA.stop a ha
      obtain ⟨s', e2, h⟩ := fromStart fu (A.restart a') b KB (hA.again hre a' (Or.inr hq)) hb hm (by omega) h2.symm
      refine ⟨s', ?_, h⟩
      show (argsC (fu + 1) A B (a, b, r) >>= _) = _
      rw [hargs, crossLoop, if_neg hr0]
      simp only [Out.ok_bind]
      rw [e]
      exact e2
  · rintro ⟨rfl, hreB⟩ ⟨a, b, r⟩ hs
    have hFA : FA a := hs.elim (fun h => h.1) (fun h => h.1)
    have hr : r = [] := hs.elim (fun h => h.2.2) (fun h => h.2.2)
    exact ⟨hA.again hre a (Or.inl hFA), hB.again hreB b (hs.elim (fun h => Or.inl h.2.1) (fun h => Or.inr h.2.1)), hr⟩

/-! ### Powers -/

theorem pow_eval {n : Nat} {s s' : A.σ} {r x : Row} (h : A.eval s = .ok (some r, s')) (hp : Row.powerC fuel r n = .ok x) :
    (powM fuel n A).eval s = .ok (some x, s') := by
  simp [powM, h, hp]

theorem pow_none {n : Nat} {s s' : A.σ} (h : A.eval s = .ok (none, s')) : (powM fuel n A).eval s = .ok (none, s') := by
  simp [powM, h]

theorem scal_pow {n : Nat} {r x : Row} (hA : Scal A r) (hp : Row.powerC fuel r n = .ok x) : Scal (powM fuel n A) x := by
  obtain ⟨a0, S, s1, s2, s3⟩ := hA
  refine ⟨a0, S, s1, fun s hs => ?_, s3⟩
  obtain ⟨s', e, hs'⟩ := s2 s hs
  exact ⟨s', pow_eval e hp, hs'⟩

theorem vect_pow {n : Nat} {L : List Row} {re : Prop} {g : Row → Row} (hA : Vect A L re) (hp : ∀ r ∈ L, Row.powerC fuel r n = .ok (g r)) :
    Vect (powM fuel n A) (L.map g) re := by
  obtain ⟨a0, F, Q, P, h⟩ := hA
  refine ⟨a0, F, Q, fun K s => ∃ K', P K' s ∧ K = K'.map g ∧ ∀ x ∈ K', x ∈ L, h.init, ?_, ?_, ?_, h.again⟩
  · intro s hs; exact ⟨L, h.start s hs, rfl, fun x hx => hx⟩
  · rintro s r' K ⟨K', hk, he, hm⟩
    cases K' with
    | nil => cases he
    | cons x K' =>
      rw [List.map_cons, List.cons.injEq] at he
      obtain ⟨rfl, rfl⟩ := he
      obtain ⟨s', e, hs'⟩ := h.step s x K' hk
      exact ⟨s', pow_eval e (hp x (hm x (by simp))), K', hs', rfl, fun z hz => hm z (by simp [hz])⟩
  · rintro s ⟨K', hk, he, hm⟩
    obtain rfl := List.map_eq_nil_iff.1 he.symm
    obtain ⟨s', e, hs'⟩ := h.stop s hk
    exact ⟨s', pow_none e, hs'⟩

/-! ### Differences -/

/-- The rows to exclude are collected. -/
def Excl (fuel : Nat) (B : Mach) (L : List Row) : Prop :=
  ∃ I : B.σ → Prop, I B.init ∧ ∀ b, I b → ∃ b',
    (if B.vec ≠ 0 then drainC B fuel b >>= fun p => (.ok (some p.1, p.2) : Out (Option (List Row) × B.σ))
      else B.eval b >>= fun p => .ok (p.1.map fun r => [r], p.2)) = .ok (some L, b')

theorem excl_scal {y : Row} (hB : Scal B y) : Excl fuel B [y] := by
  obtain ⟨b0, S, s1, s2, -⟩ := hB
  refine ⟨S, s1, fun b hb => ?_⟩
  obtain ⟨b', e, -⟩ := s2 b hb
  exact ⟨b', by rw [if_neg (by omega), e]; rfl⟩

theorem excl_vect {L : List Row} {re : Prop} (hB : Vect B L re) (hf : L.length < fuel) : Excl fuel B L := by
  obtain ⟨b0, F, Q, P, h⟩ := hB
  refine ⟨F, h.init, fun b hb => ?_⟩
  obtain ⟨b', e, -⟩ := h.drain L b fuel (h.start b hb) hf
  exact ⟨b', by rw [if_pos b0, e]; rfl⟩

/-- The state of the right-hand side: not yet read, or the rows to exclude are known. -/
theorem diff_eval {L : List Row} (hB : ∃ I : B.σ → Prop, I B.init ∧ ∀ b, I b → ∃ b',
    (if B.vec ≠ 0 then drainC B fuel b >>= fun p => (.ok (some p.1, p.2) : Out (Option (List Row) × B.σ))
      else B.eval b >>= fun p => .ok (p.1.map fun r => [r], p.2)) = .ok (some L, b')) :
    ∃ J : B.σ → Option (List Row) → Prop, J B.init none ∧ ∀ b o, J b o → ∃ b', J b' (some L) ∧
      ∀ a p, diffLoop A L fuel a = .ok p → (diffM fuel A B).eval (a, b, o) = .ok (p.1, (p.2, b', some L)) := by
  obtain ⟨I, i1, i2⟩ := hB
  refine ⟨fun b o => (o = none ∧ I b) ∨ o = some L, Or.inl ⟨rfl, i1⟩, ?_⟩
  rintro b o (⟨rfl, hb⟩ | rfl)
  · obtain ⟨b', e⟩ := i2 b hb
    refine ⟨b', Or.inr rfl, fun a p h => ?_⟩
    show ((if B.vec ≠ 0 then _ else _) >>= _) = _
    rw [e]
    simp only [Out.ok_bind]
    rw [h]; rfl
  · refine ⟨b, Or.inr rfl, fun a p h => ?_⟩
    show (diffLoop A L fuel a >>= _) = _
    rw [h]; rfl

theorem scal_diff {x : Row} {L : List Row} (hA : Scal A x) (hB : Excl fuel B L) (hx : x ∉ L) (hf : 0 < fuel) :
    Scal (diffM fuel A B) x := by
  obtain ⟨a0, S, s1, s2, s3⟩ := hA
  obtain ⟨J, j1, j2⟩ := diff_eval (A := A) hB
  refine ⟨a0, fun s => S s.1 ∧ J s.2.1 s.2.2, ⟨s1, j1⟩, ?_, ?_⟩
  · rintro ⟨a, b, o⟩ ⟨ha, hb⟩
    obtain ⟨b', hb', h⟩ := j2 b o hb
    obtain ⟨a', e, ha'⟩ := s2 a ha
    refine ⟨(a', b', some L), h a (some x, a') ?_, ha', hb'⟩
    obtain ⟨f, rfl⟩ : ∃ f, fuel = f + 1 := ⟨fuel - 1, by omega⟩
    rw [diffLoop, e]
    simp only [Out.ok_bind]
    rw [if_neg (by simp [hx]), if_neg hx]
  · rintro ⟨a, b, o⟩ ⟨ha, hb⟩
    exact ⟨s3 a ha, hb⟩

theorem diffLoop_run {LA L : List Row} {re : Prop} {F Q : A.σ → Prop} {P : List Row → A.σ → Prop} (a0 : A.vec ≠ 0)
    (hA : VecP A LA re F Q P) : ∀ (K : List Row) (a : A.σ) (fuel : Nat), P K a → K.length < fuel →
    ((K.filter fun r => decide (r ∉ L)) = [] ∧ ∃ a', diffLoop A L fuel a = .ok (none, a') ∧ Q a') ∨
    (∃ r K' a', (K.filter fun r => decide (r ∉ L)) = r :: (K'.filter fun r => decide (r ∉ L)) ∧ K'.length ≤ K.length ∧
      diffLoop A L fuel a = .ok (some r, a') ∧ P K' a') := by
  intro K
  induction K with
  | nil =>
    intro a fuel hp hf
    obtain ⟨f, rfl⟩ : ∃ f, fuel = f + 1 := ⟨fuel - 1, by omega⟩
    obtain ⟨a', e, hq⟩ := hA.stop a hp
    exact Or.inl ⟨rfl, a', by rw [diffLoop, e]; rfl, hq⟩
  | cons r K ih =>
    intro a fuel hp hf
    obtain ⟨f, rfl⟩ : ∃ f, fuel = f + 1 := ⟨fuel - 1, by omega⟩
    obtain ⟨a', e, hp'⟩ := hA.step a r K hp
    by_cases hr : r ∈ L
    · have e2 : diffLoop A L (f + 1) a = diffLoop A L f a' := by
        rw [diffLoop, e]; simp only [Out.ok_bind]; rw [if_pos ⟨a0, hr⟩]
      rw [e2, List.filter_cons_of_neg (by simp [hr])]
      rcases ih a' f hp' (by simp only [List.length_cons] at hf; omega) with h | ⟨r', K', a'', h1, h2, h3⟩
      · exact Or.inl h
      · exact Or.inr ⟨r', K', a'', h1, by simp only [List.length_cons]; omega, h3⟩
    · refine Or.inr ⟨r, K, a', List.filter_cons_of_pos (by simp [hr]), by simp, ?_, hp'⟩
      rw [diffLoop, e]
      simp only [Out.ok_bind]
      rw [if_neg (by simp [hr]), if_neg hr]

theorem vect_diff {LA L : List Row} {re : Prop} (hA : Vect A LA re) (hB : Excl fuel B L) (hf : LA.length < fuel) :
    Vect (diffM fuel A B) (LA.filter fun r => decide (r ∉ L)) re := by
  obtain ⟨a0, F, Q, P, h⟩ := hA
  obtain ⟨J, j1, j2⟩ := diff_eval (A := A) hB
  refine ⟨a0, fun s => F s.1 ∧ J s.2.1 s.2.2, fun s => Q s.1 ∧ J s.2.1 s.2.2,
    fun K s => J s.2.1 s.2.2 ∧ ∃ K', P K' s.1 ∧ K'.length ≤ LA.length ∧ K = K'.filter fun r => decide (r ∉ L), ⟨h.init, j1⟩, ?_, ?_, ?_, ?_⟩
  · rintro s ⟨ha, hb⟩
    exact ⟨hb, LA, h.start _ ha, le_rfl, rfl⟩
  · rintro ⟨a, b, o⟩ r K ⟨hb, K', hp, hl, hk⟩
    obtain ⟨b', hb', he⟩ := j2 b o hb
    rcases diffLoop_run (L := L) a0 h K' a fuel hp (by omega) with ⟨h1, -⟩ | ⟨r', K2, a', h1, h2, h3, h4⟩
    · rw [h1] at hk; cases hk
    · rw [h1, List.cons.injEq] at hk
      obtain ⟨rfl, rfl⟩ := hk
      exact ⟨(a', b', some L), he a _ h3, hb', K2, h4, by show K2.length ≤ _; omega, rfl⟩
  · rintro ⟨a, b, o⟩ ⟨hb, K', hp, hl, hk⟩
    obtain ⟨b', hb', he⟩ := j2 b o hb
    rcases diffLoop_run (L := L) a0 h K' a fuel hp (by omega) with ⟨-, a', h1, h2⟩ | ⟨r', K2, a', h1, -⟩
    · exact ⟨(a', b', some L), he a _ h1, h2, hb'⟩
    · rw [h1] at hk; cases hk
  · rintro hre ⟨a, b, o⟩ hs
    exact ⟨h.again hre a (hs.elim (fun h => Or.inl h.1) (fun h => Or.inr h.1)), hs.elim (fun h => h.2) (fun h => h.2)⟩

end RowCalc
end Ringing
