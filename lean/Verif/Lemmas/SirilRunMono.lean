import Verif.Model.SirilRun
import Verif.Lemmas.SirilMono
/-
Running programs: a run that ends is the same with a greater budget, depth of imports and number of passes.
-/
namespace Ringing.Siril

/-- `x` does not end, or `y` is the same. -/
def Ex.Le {α : Type} (x y : Ex α) : Prop := x = .fuel ∨ y = x

variable {α β : Type}

theorem exle_refl (x : Ex α) : x.Le x := .inr rfl

theorem exle_bind {x y : Ex α} {f g : α → World → Ex β} (h : x.Le y) (hf : ∀ a w, (f a w).Le (g a w)) : (x.bind f).Le (y.bind g) := by
  rcases h with rfl | rfl
  · exact .inl rfl
  · cases y with
    | ok a w => exact hf a w
    | _ => exact exle_refl _

theorem exle_after {w : World} {r r' : Res α} (h : r = .fuel ∨ r' = r) : (w.after r).Le (w.after r') := by
  rcases h with rfl | rfl
  · exact .inl rfl
  · exact exle_refl _

theorem exle_ite {p : Prop} [Decidable p] {x y x' y' : Ex α} (h : x.Le y) (h' : x'.Le y') : (if p then x else x').Le (if p then y else y') := by
  by_cases hp : p
  · rw [if_pos hp, if_pos hp]; exact h
  · rw [if_neg hp, if_neg hp]; exact h'

variable {A : RArgs} {m : Nat} {imp imp' : Str → World → Ex Unit}

theorem exle_inContext (hm : A.budget ≤ m) {w : World} {f : Calls → M α} (hf : ∀ c c', LeCalls c c' → Siril.Le (f c) (f c')) :
    (inContext A w f).Le (inContext { A with budget := m } w f) :=
  exle_bind (exle_refl _) fun v w => exle_after (le_mbind (le_refl' _) (fun _ => hf _ _ (le_calls v _ _ hm)) _)

theorem exle_boolConst (hm : A.budget ≤ m) (c : Expr) (w : World) : (boolConst A c w).Le (boolConst { A with budget := m } c w) :=
  exle_inContext hm fun _ _ hc => le_bind (le_refl' _) fun _ => hc.bool _

theorem exle_execProve (hm : A.budget ≤ m) (x : Expr) (w : World) : (execProve A x w).Le (execProve { A with budget := m } x w) := by
  unfold execProve
  exact exle_ite (exle_refl _) (exle_bind (exle_refl _) fun v w => exle_bind (exle_after (le_proveC v _ hm x _ _)) fun _ _ => exle_refl _)

theorem exle_execEcho (hm : A.budget ≤ m) (k : EchoMode) (x : Expr) (w : World) : (execEcho A k x w).Le (execEcho { A with budget := m } k x w) := by
  unfold execEcho
  exact exle_bind (exle_inContext hm fun _ _ hc => le_bind (le_refl' _) fun _ => hc.strNl _) fun _ _ => exle_refl _

theorem exle_addMusic (hm : A.budget ≤ m) (xs : List Expr) (w : World) : (addMusic A xs w).Le (addMusic { A with budget := m } xs w) := by
  induction xs generalizing w with
  | nil => exact exle_refl _
  | cons x xs ih =>
    rw [addMusic, addMusic]
    exact exle_bind (exle_inContext hm fun _ _ hc => hc.mus _) fun _ _ => exle_bind (exle_refl _) fun _ _ => ih _

theorem exle_forLoop {x : Str} {f g : World → Ex Unit} (h : ∀ w, (f w).Le (g w)) (l : List Expr) (w : World) : (forLoop x f l w).Le (forLoop x g l w) := by
  induction l generalizing w with
  | nil => exact exle_refl _
  | cons a l ih => exact exle_bind (h _) fun _ _ => ih _

mutual

theorem exle_execS (hm : A.budget ≤ m) (hi : ∀ s w, (imp s w).Le (imp' s w)) :
    ∀ (s : Stmt) (w : World), (execS A imp s w).Le (execS { A with budget := m } imp' s w)
  | .eof, w | .null, w | .bells _, w | .extents _, w | .rows _ _, w | .rounds _, w | .rowMask _, w | .define _ _, w | .dflt _ _, w => by
    rw [execS, execS]; exact exle_refl _
  | .import s, w => by rw [execS, execS]; exact hi s w
  | .prove x, w => by rw [execS, execS]; exact exle_execProve hm x w
  | .echo k x, w => by rw [execS, execS]; exact exle_execEcho hm k x w
  | .music xs, w => by rw [execS, execS]; exact exle_addMusic hm xs _
  | .ifs alts, w => by rw [execS, execS]; exact exle_execIf hm hi alts w
  | .foreach x a body, w => by
    rw [execS, execS]
    exact exle_bind (exle_inContext hm fun _ _ hc => hc.arr _) fun l w => exle_forLoop (exle_execAll hm hi body) l w
  | .immediate x e, w => by
    rw [execS, execS]
    exact exle_bind (exle_inContext hm fun _ _ hc => hc.eval _) fun _ _ => exle_refl _

theorem exle_execAll (hm : A.budget ≤ m) (hi : ∀ s w, (imp s w).Le (imp' s w)) :
    ∀ (ss : List Stmt) (w : World), (execAll A imp ss w).Le (execAll { A with budget := m } imp' ss w)
  | [], w => by rw [execAll, execAll]; exact exle_refl _
  | s :: ss, w => by
    rw [execAll, execAll]
    exact exle_bind (exle_execS hm hi s w) fun _ w => exle_execAll hm hi ss w

theorem exle_execIf (hm : A.budget ≤ m) (hi : ∀ s w, (imp s w).Le (imp' s w)) :
    ∀ (alts : List (Expr × List Stmt)) (w : World), (execIf A imp alts w).Le (execIf { A with budget := m } imp' alts w)
  | [], w => by rw [execIf, execIf]; exact exle_refl _
  | (c, ss) :: alts, w => by
    rw [execIf, execIf]
    exact exle_bind (exle_boolConst hm c w) fun b w => exle_ite (exle_execAll hm hi ss w) (exle_execIf hm hi alts w)

end

theorem exle_loop (hm : A.budget ≤ m) (hi : ∀ s w, (imp s w).Le (imp' s w)) (ep : Policy) :
    ∀ (n n' : Nat), n ≤ n' → ∀ (src : Src) (c : Nat) (w : World),
      (runLoop A imp ep n src c w).Le (runLoop { A with budget := m } imp' ep n' src c w)
  | 0, _, _, _, _, _ => .inl rfl
  | n + 1, 0, h, _, _, _ => absurd h (by omega)
  | n + 1, n' + 1, h, src, c, w => by
    have ih := exle_loop hm hi ep n n' (by omega)
    have hread : readStmt { A with budget := m } w.v.bells src = readStmt A w.v.bells src := rfl
    rw [runLoop, runLoop]
    simp only [hread]
    obtain ⟨o, src'⟩ := readStmt A w.v.bells src
    cases o with
    | throw x =>
      cases ep with
      | warn => exact ih src' c _
      | _ => exact exle_refl _
    | ub => exact exle_refl _
    | timeout => exact exle_refl _
    | ok s =>
      have hs := exle_execS hm hi s w
      rcases hs with hs | hs
      · cases s <;> first | exact exle_refl _ | (left; simp only [hs])
      · cases hx : execS A imp s w
        case ok u w1 => cases s <;> first | exact exle_refl _ | (simp only [hs, hx]; exact ih _ _ _)
        case err w1 =>
          cases ep with
          | warn => cases s <;> first | exact exle_refl _ | (simp only [hs, hx]; exact ih _ _ _)
          | _ => cases s <;> first | exact exle_refl _ | (simp only [hs, hx]; exact exle_refl _)
        all_goals cases s <;> first | exact exle_refl _ | (simp only [hs, hx]; exact exle_refl _)

theorem exle_import (hm : A.budget ≤ m) : ∀ (d d' : Nat), d ≤ d' → ∀ s w, (importC A d s w).Le (importC { A with budget := m } d' s w)
  | 0, _, _, _, _ => .inl rfl
  | d + 1, 0, h, _, _ => absurd h (by omega)
  | d + 1, d' + 1, h, s, w => by
    have ih := exle_import hm d d' (by omega)
    rw [importC, importC]
    have hb : (importText A (importC A d) s w).Le (importText { A with budget := m } (importC { A with budget := m } d') s w) := by
      unfold importText
      have : ({ A with budget := m } : RArgs).files s = A.files s := rfl
      rw [this]
      cases A.files s with
      | none => exact exle_refl _
      | some text =>
        have : openSrc { A with budget := m } text = openSrc A text := rfl
        dsimp only
        rw [this]
        exact exle_bind (exle_refl _) fun src w => exle_bind (exle_loop hm ih .propagate _ _ (le_refl _) _ _ _) fun _ _ => exle_refl _
    rcases hb with hb | hb
    · rw [hb]; exact .inl rfl
    · rw [hb]; exact exle_refl _

theorem exle_first (hm : A.budget ≤ m) {d d' : Nat} (hd : d ≤ d') (w : World) : (proveFirst A d w).Le (proveFirst { A with budget := m } d' w) := by
  have hb : (firstBody A d w).Le (firstBody { A with budget := m } d' w) :=
    exle_bind (exle_refl _) fun src w => exle_bind (exle_refl _) fun s w => exle_bind (exle_refl _) fun s' w => by
      cases s' with
      | eof => exact exle_execS hm (exle_import hm d d' hd) s w
      | _ => exact exle_refl _
  unfold proveFirst
  refine exle_ite ?_ (exle_refl _)
  rcases hb with hb | hb
  · rw [hb]; exact .inl rfl
  · rw [hb]; exact exle_refl _

theorem exle_main (hm : A.budget ≤ m) {d d' n n' : Nat} (hd : d ≤ d') (hn : n ≤ n') (text : Option Str) (w : World) :
    (mainC A d n text w).Le (mainC { A with budget := m } d' n' text w) := by
  have hr : ∀ w, (readProgram A d n text w).Le (readProgram { A with budget := m } d' n' text w) := by
    intro w
    cases text with
    | none => exact exle_refl _
    | some t => exact exle_bind (exle_refl _) fun src w => exle_bind (exle_loop hm (exle_import hm d d' hd) _ n n' hn _ _ _) fun _ _ => exle_refl _
  have hs : (proveStream A d n text w).Le (proveStream { A with budget := m } d' n' text w) :=
    exle_bind (hr _) fun any w => exle_bind (exle_ite (exle_first hm hd w) (exle_refl _)) fun _ _ => exle_refl _
  unfold mainC
  rcases hs with hs | hs
  · rw [hs]; exact .inl rfl
  · rw [hs]; exact exle_refl _

end Ringing.Siril
