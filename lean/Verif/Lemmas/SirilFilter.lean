import Verif.Spec.SirilFilter
import Verif.Props.SirilMain
import Verif.Props.MethodSet
import Verif.Props.Method
/-
Lemmas for C75: the loop of `filter` over the lines of its input, and a proof in it.
-/
namespace Ringing.Siril
open Grammar Running Spec Spec.Siril

variable {A : RArgs} {I : IArgs} {F : FArgs}

/-! ### The loop -/

/-- The entries one after the other. -/
def eachView (f : Lib.View → World → Ex Unit) : List Lib.View → World → Ex Unit
  | [], w => .ok () w
  | i :: is, w => (f i w).bind fun _ w => eachView f is w

theorem exBind_assoc {α β γ : Type} (x : Ex α) (f : α → World → Ex β) (g : β → World → Ex γ) :
    (x.bind f).bind g = x.bind fun a w => (f a w).bind g := by cases x <;> rfl

theorem filterLoop_spec (fl : Bool) : ∀ (N : Nat) (ls : List Str), ls.length ≤ N → ∀ (e : Lib.LiteEntry) (l : Lib.Lite),
    Lib.StreamAt l.f ls → e.nameFlag = fl → (l.b ≠ 0 → e.b = l.b) →
    (∃ es, LiteEntries l.b ls es ∧ ∃ es' : List Lib.LiteEntry, List.Forall₂ (Lib.Holds fl) es' es ∧ ∀ (A : RArgs) d n text, ∀ k, es.length < k → ∀ w,
      filterLoop A F d n text k e l w = eachView (filterOne A F d n text) (es'.map Lib.lite.view) w) ∨
    (∃ ls1 bad ls2 es, ls = ls1 ++ bad :: ls2 ∧ LiteEntries l.b ls1 es ∧ BadLine bad ∧ ∃ es' : List Lib.LiteEntry, List.Forall₂ (Lib.Holds fl) es' es ∧
      ∀ (A : RArgs) d n text, ∀ k, es.length < k → ∀ w, filterLoop A F d n text k e l w =
        (eachView (filterOne A F d n text) (es'.map Lib.lite.view) w).bind fun _ w => .err w) := by
  intro N
  induction N using Nat.strong_induction_on with
  | _ N ih =>
    intro ls hN e l hs hf hb
    have hn : ls.length + 2 ≤ l.f.rest.length + 2 := by have := hs.length; omega
    have hread : ∀ r, Lib.liteRead l.b (l.f.rest.length + 2) e l.f = r → Lib.lite.read e l = r >>= fun r => .ok (r.1, r.2.1, { l with f := r.2.2 }) := by
      intro r hr; rw [← hr]; rfl
    rcases Lib.liteRead_spec e hs hn hf hb with ⟨a1, e', s', a2, a3, a4⟩ | ⟨ls1, bad, ls2, a1, a2, a3, a4⟩ | ⟨ls1, ln, ls2, x, e', s', a1, a2, a3, a4, a5, a6⟩
    · left
      refine ⟨[], a1, [], .nil, fun A d m text n hn w => ?_⟩
      obtain ⟨k, rfl⟩ : ∃ k, n = k + 1 := ⟨n - 1, by simp at hn; omega⟩
      rw [filterLoop, hread _ a2]
      rfl
    · right
      refine ⟨ls1, bad, ls2, [], a1, a2, a3, [], .nil, fun A d m text n hn w => ?_⟩
      obtain ⟨k, rfl⟩ : ∃ k, n = k + 1 := ⟨n - 1, by simp at hn; omega⟩
      rw [filterLoop, hread _ a4]
      rfl
    · have hlt : ls2.length < N := by rw [a1] at hN; simp at hN; omega
      have hone : ∀ (A : RArgs) d n text k w, filterLoop A F d n text (k + 1) e l w = (filterOne A F d n text (Lib.lite.view e') w).bind fun _ w =>
          filterLoop A F d n text k e' { l with f := s' } w := by
        intro A d m text k w; rw [filterLoop, hread _ a3]; rfl
      rcases ih _ hlt ls2 le_rfl e' { l with f := s' } a4 a5.2.2.2 a6 with ⟨es, b1, es', b2, b3⟩ | ⟨ls3, bad, ls4, es, b1, b2, b3, es', b4, b5⟩
      · left
        refine ⟨x :: es, ?_, e' :: es', .cons a5 b2, fun A d m text n hn w => ?_⟩
        · rw [a1, List.append_cons]; exact Lib.liteEntries_append a2 b1
        · obtain ⟨k, rfl⟩ : ∃ k, n = k + 1 := ⟨n - 1, by simp at hn; omega⟩
          rw [hone, List.map_cons, eachView]
          congr 1; funext _ w
          exact b3 A d m text k (by simpa using hn) w
      · right
        refine ⟨(ls1 ++ [ln]) ++ ls3, bad, ls4, x :: es, ?_, Lib.liteEntries_append a2 b2, b3, e' :: es', .cons a5 b4, fun A d m text n hn w => ?_⟩
        · rw [a1, b1]; simp
        · obtain ⟨k, rfl⟩ : ∃ k, n = k + 1 := ⟨n - 1, by simp at hn; omega⟩
          rw [hone, List.map_cons, eachView, exBind_assoc]
          congr 1; funext _ w
          exact b5 A d m text k (by simpa using hn) w

/-! ### A proof -/

/-- A state between two methods. -/
structure Filtering (v : Env) (n : Nat) (w : World) : Prop where
  env : w.v = { v with maxLength := 0, rounds := List.range n }
  min : w.minLength = 0
  mask : DefaultMask w.rmask
  batch : w.interactive = false
  std : ∀ y e, (y, e) ∈ builtins ∨ (y, e) ∈ script → w.e.syms y = some e

/-- The arguments do not interfere. -/
structure Clean (A : RArgs) (v : Env) (n : Nat) : Prop where
  bells : v.bells = n ∧ n ≤ 33
  limit : v.nodeLimit = 0
  music : v.music = Music.new v.music.b
  text : ∀ b, '\\' ∉ v.bellText b
  only : v.everyrowOnly = false
  filter : v.filter = true
  answers : A.determineBells = false
  one : A.proveOne = false
  proves : A.proveSymbol = [] ∨ A.proveSymbol = first

theorem defineAll_std {ds : List (Str × Expr)} (hd : ∀ d ∈ ds, ¬ StandardName d.1) {t : Table}
    (h : ∀ y e, (y, e) ∈ builtins ∨ (y, e) ∈ script → t y = some e) : ∀ y e, (y, e) ∈ builtins ∨ (y, e) ∈ script → defineAll ds t y = some e := by
  intro y e hy
  have hs : (y, e) ∈ standard false false := by
    unfold standard
    rcases hy with hy | hy
    · exact List.mem_append_left _ hy
    · exact List.mem_append_right _ (List.mem_cons_of_mem _ hy)
  have hm : y ∈ (standard false false).map Prod.fst := List.mem_map.2 ⟨_, hs, rfl⟩
  rw [defineAll_other ds t (y := y) (by rintro d hd' rfl; exact hd d hd' (.inr (.inr (.inr ⟨e, hs⟩)))) (fun h => (standard_nodup false false).2 (h ▸ hm))]
  exact h y e hy

/-- `proveStream` on a program that is run to its end. -/
theorem stream_exit {d n k : Nat} {text : Str} {ts rest : List Tok} {w w1 : World} (hp : Program A text ts) (hi : w.interactive = false)
    (hs : Steps A (importC A d) k ts { w with failed := false } rest w1) (ho : Over A w1.v.bells rest) (hn : k < n)
    (hf : A.proveSymbol = [] ∨ (A.proveSymbol = first ∧ w1.done = true)) (h1 : A.proveOne = false) :
    proveStream A d n (some text) w = .ok (!w1.failed) w1 := by
  have hw : w1.interactive = false := (steps_interactive hs).trans hi
  have h2 : readProgram A d n (some text) { w with failed := false } = .ok (decide (k ≠ 0)) w1 := by
    unfold readProgram runC
    simp only [program_open hp, Ex.lift, Ex.bind, C72_run hs ho hn, Nat.zero_add]
  have h3 : (if decide (k ≠ 0) = true ∧ A.proveSymbol ≠ [] then proveFirst A d w1 else .ok () w1) = Ex.ok () w1 := by
    split
    · rename_i hc
      rcases hf with hf | ⟨hf, hd⟩
      · exact absurd hf hc.2
      unfold proveFirst
      rw [if_neg]
      rintro (h | h)
      · exact h hf
      · exact h.1 hd
    · rfl
  unfold proveStream
  simp only [h2, Ex.bind]
  rw [h3]
  dsimp only
  rw [if_neg (by simp [h1])]
  have e : ({ w1 with e := { w1.e with out := w1.e.out ++ if w1.interactive = true then ['\n'] else [] } } : World) = w1 := by
    obtain ⟨⟩ := w1; simp only at hw; subst hw; simp
  rw [e]

theorem stream_touch {v : Env} {n : Nat} {text : Str} {ts : List Tok} {ds : List (Str × Expr)} {x : Expr} {star : Prop} {cs : List Change} {w : World}
    (hA : Clean A v n) (hw : Filtering v n w) (hp : Program A text ts) (hc : Touch A ts n ds x) (hx : Expands n (defineAll ds w.e.syms) star x cs) :
    ∃ N good w', Filtering v n w' ∧ w'.e.syms = defineAll ds w.e.syms ∧ w'.e.out = w.e.out ∧ w'.reports = w.reports ∧
      (good = true ↔ NoRowTooOften v.extents (rowsFrom (List.range n) (cs.map (·.swaps))) ∧
        lastOf (List.range n) (rowsFrom (List.range n) (cs.map (·.swaps))) = List.range n) ∧
      ∀ b d k, N ≤ b → ds.length + 1 < k → proveStream { A with budget := b } d k (some text) w = .ok good w' := by
  obtain ⟨t1, t2, hb1, hb2, ho⟩ := hc.reads
  obtain ⟨w3, hw3⟩ : ∃ w3 : World, w3 = { w with failed := false, e := { w.e with syms := defineAll ds w.e.syms } } := ⟨_, rfl⟩
  have v3 : w3.v = { v with maxLength := 0, rounds := List.range n } := by rw [hw3]; exact hw.env
  have s3 : w3.e.syms = defineAll ds w.e.syms := by rw [hw3]
  have def3 : Defaults w3.e.syms := by rw [s3]; exact standard_defaults (defineAll_std hc.names hw.std)
  have row3 : IsRow w3.v.rounds := by
    rw [v3]
    exact (isRow_iff_valid _).2 (Row.valid_rounds (by have := hA.bells.2; omega))
  have ord : Ordered w3 :=
    ⟨by rw [v3]; exact hA.limit, row3, by rw [v3]; simp [hA.bells.1], by rw [hw3]; exact hw.mask⟩
  obtain ⟨m, henv, hshow⟩ := ordered_env ord
  have plain : Plain { w3.v with mask := m } :=
    { limit := ord.limit
      music := by rw [v3]; exact hA.music
      max := by rw [v3]
      row := row3
      bells := ord.bells
      mask := hshow
      text := by rw [v3]; exact hA.text
      only := by rw [v3]; exact hA.only }
  obtain ⟨N, hN⟩ := C59_report plain def3 (by rw [s3]; exact hx) (b := n) (by rw [v3]; simp) w3.e rfl (noState w3.e) _ rfl
  obtain ⟨r, s, hprove, hsyms, hans⟩ := hN N le_rfl
  have m3 : w3.minLength = 0 := by rw [hw3]; exact hw.min
  obtain ⟨w4, hw4⟩ : ∃ w4 : World, w4 = { w3 with done := true, e := s.e, failed := w3.failed || (decide (r ≠ .true) && decide (r ≠ .broken)) } := ⟨_, rfl⟩
  have f4 : w4.failed = (decide (r ≠ .true) && decide (r ≠ .broken)) := by rw [hw4, hw3]; rfl
  have v4 : w4.v = { v with maxLength := 0, rounds := List.range n } := by rw [hw4]; exact v3
  have sy4 : w4.e.syms = defineAll ds w.e.syms := by rw [hw4]; exact hsyms.trans s3
  have r3 : w3.v.rounds = List.range n := by rw [v3]
  have x3 : w3.v.extents = v.extents ∧ w3.v.filter = true := by rw [v3]; exact ⟨rfl, hA.filter⟩
  have o3 : w3.e.out = w.e.out := by rw [hw3]
  have sh : ∀ t, shown { w3.v with mask := m } t = [] := by
    intro t; unfold shown; rw [if_pos (.inl x3.2)]
  simp only [sh] at hans
  simp only [r3, x3.1, x3.2, true_or, if_true, List.append_nil] at hans
  have o4 : w4.e.out = w.e.out := by
    rw [hw4, ← o3]
    rcases hans with ⟨_, _, _, _, _, h⟩ | ⟨_, _, _, h⟩ | ⟨_, _, _, h⟩ <;> exact h
  refine ⟨N, !w4.failed, w4, ⟨v4, by rw [hw4]; exact m3, by rw [hw4, hw3]; exact hw.mask, by rw [hw4, hw3]; exact hw.batch, ?_⟩, sy4, o4,
    by rw [hw4, hw3], ?_, ?_⟩
  · rw [sy4]; exact defineAll_std hc.names hw.std
  · rw [f4]
    rcases hans with ⟨k, hk, -, h2, rfl, -⟩ | ⟨h1, h2, rfl, -⟩ | ⟨h1, h2, rfl, -⟩
    · exact ⟨by simp, fun h => absurd (Proof.noRow_take h.1 (k + 1)) h2⟩
    · exact ⟨by simp, fun h => absurd h.2 h2⟩
    · exact ⟨fun _ => ⟨h1, h2⟩, fun _ => by simp⟩
  · intro b d k hb hk
    have hpb : proveC { w3.v with mask := m } 0 b x w3.e (noState w3.e) = .ok r s := by
      rw [C57_budget _ 0 hb x w3.e _ (by rw [hprove]; simp), hprove]
    have hpr := C71_prove (A := { A with budget := b }) (imp := importC { A with budget := b } d) (x := x) (w := w3) (v := { w3.v with mask := m }) (r := r) (s := s)
      (by simp [hA.one]) hA.answers henv (by rw [m3]; exact hpb)
    rw [← hw4] at hpr
    have bw : w.v.bells = n := by rw [hw.env]; exact hA.bells.1
    have b3 : w3.v.bells = n := by rw [v3]; exact hA.bells.1
    have steps : Steps { A with budget := b } (importC { A with budget := b } d) (ds.length + 1) ts { w with failed := false } t2 w4 := by
      have s1 : Steps { A with budget := b } (importC { A with budget := b } d) ds.length ts { w with failed := false } t1 w3 := by
        rw [hw3]
        exact defs_steps (A := { A with budget := b }) (w := { w with failed := false }) (by
          show Definitions _ w.v.bells _ _ _
          rw [bw]
          clear * - hb1
          induction hb1 with
          | nil => exact .nil
          | cons h _ ih => exact .cons h ih)
      have s2 : Steps { A with budget := b } (importC { A with budget := b } d) 1 t1 w3 t2 w4 :=
        .cons (by rw [b3]; exact hb2) (by simp) hpr .nil
      have s3 : ∀ {A : RArgs} {imp k k' ts ts' ts'' w w' w''}, Steps A imp k ts w ts' w' → Steps A imp k' ts' w' ts'' w'' →
          Steps A imp (k + k') ts w ts'' w'' := by
        intro A imp k k' ts ts' ts'' w w' w'' h h'
        induction h with
        | nil => rw [Nat.zero_add]; exact h'
        | cons h1 h2 h3 _ ih => rw [Nat.add_right_comm]; exact .cons h1 h2 h3 (ih h')
      exact s3 s1 s2
    exact stream_exit (A := { A with budget := b }) hp hw.batch steps (by rw [v4]; show Over _ v.bells _; rw [hA.bells.1]; exact ho) hk
      (by rcases hA.proves with h | h
          · exact .inl h
          · exact .inr ⟨h, by rw [hw4]⟩) hA.one

end Ringing.Siril
