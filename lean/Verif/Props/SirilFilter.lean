import Verif.Lemmas.SirilFilter
/-
C75: `gsiril --filter`.
-/
namespace Ringing.Siril
open Grammar Running Spec Spec.Siril

variable {A : RArgs} {I : IArgs} {F : FArgs}

/-! ### One method -/

theorem define_method {m : Lib.Named} {cs : List Change} {c : Change} (hm : m.m.ch = cs ++ [c]) (hn : m.name = []) (p : Str) (w : World) :
    defineMethod F m (some p) w = { w with e := { w.e with syms := defineAll (methodSymbols F cs c p) w.e.syms } } := by
  unfold defineMethod methodSymbols
  rw [hm, hn]
  by_cases h1 : F.lhSymbol = [] <;> by_cases h2 : F.leadSymbol = [] <;> by_cases h3 : F.payloadSymbol = [] <;>
    simp [h1, h2, h3, defineAll, World.defineSym]

theorem view_meth {e : Lib.LiteEntry} {n : Nat} {pn p : Str} (h : Lib.Holds false e (n, pn, p)) (hb : '{' ∉ pn) :
    (Lib.lite.view e).meth = (PN.ofCStr n pn >>= fun cs => .ok ⟨⟨n, cs⟩, []⟩) ∧ (Lib.lite.view e).payload = some p := by
  have hs := h.shows
  obtain ⟨s1, s2, s3, s4⟩ := hs
  refine ⟨?_, s3⟩
  have hname : (Lib.lite.view e).baseName = .ok [] := by
    show (Lib.lite.view e).name >>= (fun n => Lib.baseName n (Lib.lite.view e).bells) = _
    rw [s4, Out.ok_bind]
    exact Lib.baseName_nil _
  show (Lib.lite.view e).made = _
  unfold Lib.View.made
  rw [s2, hname, Out.ok_bind, Out.ok_bind, s1]
  show (if (n : Int) < 0 then Out.ub else Method.ofStringC pn (n : Int).toNat >>= _) = _
  rw [if_neg (by omega), Int.toNat_natCast]
  unfold Method.ofStringC
  rw [C18_string _ _ hb]
  cases PN.ofCStr n pn <;> rfl

theorem filterOne_bad {d k n : Nat} {text : Str} {e : Lib.LiteEntry} {pn p : Str} (h : Lib.Holds false e (n, pn, p)) (hb : '{' ∉ pn)
    (hbad : ∀ cs, Notation n pn cs → cs = []) (w : World) :
    filterOne A F d k text (Lib.lite.view e) w = .ok () { w with reports := w.reports + 1 } := by
  unfold filterOne
  rw [(view_meth h hb).1]
  rcases C18_rejects n pn with ⟨cs, hc⟩ | hc | hc | hc
  · have : cs = [] := hbad cs ((C18_meaning n pn cs).1 hc)
    subst this
    rw [hc]; rfl
  all_goals rw [hc]; rfl

theorem filterOne_good {d k n : Nat} {text : Str} {e : Lib.LiteEntry} {pn p : Str} {cs : List Change} {c : Change} (h : Lib.Holds false e (n, pn, p))
    (hb : '{' ∉ pn) (hc : Notation n pn (cs ++ [c])) (w : World) :
    filterOne A F d k text (Lib.lite.view e) w =
      (proveStream A d k (some text) { w with e := { w.e with syms := defineAll (methodSymbols F cs c p) w.e.syms } }).bind fun good w =>
        if good then printMethod A F ⟨⟨n, cs ++ [c]⟩, []⟩ (some p) w else .ok () w := by
  unfold filterOne
  rw [(view_meth h hb).1, (C18_meaning n pn _).2 hc]
  show (if cs ++ [c] = [] then _ else _) = _
  rw [if_neg (by simp), (view_meth h hb).2, define_method (cs := cs) (c := c) rfl rfl]

theorem ordered_filtering {v : Env} {n : Nat} {w : World} (hA : Clean A v n) (hw : Filtering v n w) : Ordered w :=
  ⟨by rw [hw.env]; exact hA.limit, by rw [hw.env]; exact (isRow_iff_valid _).2 (Row.valid_rounds (by have := hA.bells.2; omega)),
    by rw [hw.env]; simp [hA.bells.1], hw.mask⟩

/-- A text that is not interpolated has itself as value. -/
theorem strVar_text {x p : Str} {w : World} (h : Ordered w) (hx : w.e.syms x = some (.str p {})) :
    ∃ j, ∀ b, 1 ≤ b → strVar { A with budget := b } x w = .ok p { w with e := { w.e with nodes := j } } := by
  obtain ⟨m, henv, -⟩ := ordered_env h
  obtain ⟨st, hst, -, he, -⟩ := ordered_start h m (noState w.e)
  refine ⟨w.e.nodes + 1 + 1, fun b hb => ?_⟩
  obtain ⟨b, rfl⟩ : ∃ k, b = k + 1 := ⟨b - 1, by omega⟩
  obtain ⟨v', hv'⟩ : ∃ v' : Env, v' = { w.v with mask := m } := ⟨_, rfl⟩
  rw [← hv'] at hst henv
  have hl : v'.nodeLimit = 0 := by rw [hv']; exact h.limit
  unfold strVar inContext
  rw [henv]
  simp only [Ex.bind]
  have h1 : M.bind (startC v' w.e) (fun _ => (setSilent true >>= fun _ => fun s =>
      match w.e.syms x with | some e => (calls v' (b + 1)).str e s | none => .err s : M Str)) (noState w.e) =
      .ok p ({ st with silent := true } : St).ticked := by
    unfold M.bind
    rw [hst, hx]
    show M.bind (tick _) _ _ = _
    unfold M.bind
    rw [tick_ok hl]
    rfl
  refine (congrArg w.after h1).trans ?_
  show Ex.ok p { w with e := _ } = _
  congr 2
  unfold St.ticked
  rw [he]

theorem format_some {n : Nat} {cs : List Change} (hn : n ≤ 33) (hc : ∀ c ∈ cs, c.n = n ∧ IsChange c.n c.swaps) : ∃ f, compact n cs f := by
  have hno : Method.has (Method.M_DASH ||| Method.M_SYMMETRY ||| Method.M_PLUS) Method.M_OMIT_LH = false := by decide
  obtain ⟨p, k1, -, -⟩ := C17_roundtrip (m := ⟨n, cs⟩) (by show n ≤ 255; omega) (fun c h => ⟨(hc c h).2, (hc c h).1⟩)
    (Method.M_DASH ||| Method.M_SYMMETRY ||| Method.M_PLUS) (.inr hno)
  exact ⟨p, k1⟩

theorem print_method {v : Env} {n : Nat} {w : World} (hA : Clean A v n) (hw : Filtering v n w) {cs : List Change} {f p : Str} (hf : compact n cs f)
    (hp : F.payloadSymbol ≠ [] → w.e.syms F.payloadSymbol = some (.str p {})) :
    ∃ w', Filtering v n w' ∧ w'.e.out = w.e.out ++ (f ++ '\t' :: (p ++ ['\n'])) ∧ w'.reports = w.reports ∧ w'.e.syms = w.e.syms ∧
      ∀ b, 1 ≤ b → printMethod { A with budget := b } F ⟨⟨n, cs⟩, []⟩ (some p) w = .ok () w' := by
  unfold compact at hf
  by_cases h : F.payloadSymbol = []
  · refine ⟨{ w with e := { w.e with out := w.e.out ++ (f ++ '\t' :: (p ++ ['\n'])) } }, ⟨hw.env, hw.min, hw.mask, hw.batch, hw.std⟩, rfl, rfl, rfl,
      fun b _ => ?_⟩
    unfold printMethod
    rw [hf]
    simp only [Ex.lift, Ex.bind]
    rw [if_neg (by simp [h])]
    rfl
  · obtain ⟨j, hj⟩ := strVar_text (A := A) (ordered_filtering hA hw) (hp h)
    refine ⟨{ w with e := { w.e with nodes := j, out := w.e.out ++ (f ++ '\t' :: (p ++ ['\n'])) } }, ⟨hw.env, hw.min, hw.mask, hw.batch, hw.std⟩, rfl, rfl, rfl,
      fun b hb => ?_⟩
    unfold printMethod
    rw [hf]
    simp only [Ex.lift, Ex.bind]
    rw [if_pos (by simpa using h), hj b hb]

/-! ### All methods -/

/-- The symbols of the arguments have no other meaning. -/
structure FreeNames (F : FArgs) (ds : List (Str × Expr)) : Prop where
  lh : ¬ StandardName F.lhSymbol
  lead : ¬ StandardName F.leadSymbol
  payload : ¬ StandardName F.payloadSymbol ∧ ∀ d ∈ ds, d.1 ≠ F.payloadSymbol

theorem methodSymbols_names {ds : List (Str × Expr)} (h : FreeNames F ds) {cs : List Change} {c : Change} {p : Str} :
    ∀ d ∈ methodSymbols F cs c p, ¬ StandardName d.1 := by
  intro d hd
  unfold methodSymbols at hd
  simp only [List.mem_append] at hd
  rcases hd with (hd | hd) | hd
  · split at hd
    · cases hd
    · rw [List.mem_singleton] at hd; subst hd; exact h.lh
  · split at hd
    · cases hd
    · rw [List.mem_singleton] at hd; subst hd; exact h.lead
  · split at hd
    · cases hd
    · rw [List.mem_singleton] at hd; subst hd; exact h.payload.1

theorem definitionIn_append (a b : List (Str × Expr)) (y : Str) : definitionIn (a ++ b) y = (definitionIn b y).or (definitionIn a y) := by
  induction a with
  | nil => show _ = (definitionIn b y).or none; simp
  | cons d a ih => rw [List.cons_append, definitionIn_cons, ih, definitionIn_cons, Option.or_assoc]

theorem each_method {v : Env} {n : Nat} {text : Str} {ts : List Tok} {ds : List (Str × Expr)} {x : Expr} {star : Prop} {touch : List Change → List Change}
    (hA : Clean A v n) (hF : FreeNames F ds) (hp : Program A text ts) (hc : Touch A ts n ds x)
    (hx : ∀ cs c p, (∀ ch ∈ cs ++ [c], ch.n = n ∧ IsChange ch.n ch.swaps) → Expands n (definitionIn (methodSymbols F cs c p ++ ds)) star x (touch (cs ++ [c])))
    {es : List (Int × Str × Str)} {es' : List Lib.LiteEntry} (h : List.Forall₂ (Lib.Holds false) es' es) (hb : ∀ e ∈ es, e.1 = n ∧ '{' ∉ e.2.1) :
    ∀ w, Filtering v n w → ∃ N w' out bad, Filtered n (fun cs => TrueTouch v.extents n (touch cs)) es out bad ∧ Filtering v n w' ∧
      w'.e.out = w.e.out ++ out ∧ w'.reports = w.reports + bad ∧
      ∀ b d k, N ≤ b → ds.length + 1 < k → eachView (filterOne { A with budget := b } F d k text) (es'.map Lib.lite.view) w = .ok () w' := by
  induction h with
  | nil => intro w hw; exact ⟨0, w, [], 0, .nil, hw, by simp, rfl, fun _ _ _ _ _ => rfl⟩
  | @cons e x0 es' es he _ ih =>
    intro w hw
    obtain ⟨b0, pn, p⟩ := x0
    obtain ⟨hb0, hbr⟩ := hb _ List.mem_cons_self
    dsimp only at hb0 hbr
    subst hb0
    have ih := ih fun e h => hb e (List.mem_cons_of_mem _ h)
    by_cases hbad : ∀ cs, Notation n pn cs → cs = []
    · obtain ⟨N, w', out, bad, h1, h2, h3, h4, h5⟩ := ih { w with reports := w.reports + 1 } ⟨hw.env, hw.min, hw.mask, hw.batch, hw.std⟩
      refine ⟨N, w', out, bad + 1, .bad hbad h1, h2, h3, by rw [h4]; show w.reports + 1 + bad = _; omega, fun b d k hb hk => ?_⟩
      rw [List.map_cons, eachView, filterOne_bad he hbr hbad]
      exact h5 b d k hb hk
    · push Not at hbad
      obtain ⟨cs0, hnot, hne⟩ := hbad
      obtain ⟨cs, c, rfl⟩ : ∃ cs c, cs0 = cs ++ [c] := ⟨cs0.dropLast, cs0.getLast hne, (List.dropLast_append_getLast hne).symm⟩
      have hwf : ∀ ch ∈ cs ++ [c], ch.n = n ∧ IsChange ch.n ch.swaps := C18_wellformed (by have := hA.bells.2; omega) ((C18_meaning n pn _).2 hnot)
      have hms := methodSymbols_names hF (cs := cs) (c := c) (p := p)
      have hw0 : Filtering v n { w with e := { w.e with syms := defineAll (methodSymbols F cs c p) w.e.syms } } :=
        ⟨hw.env, hw.min, hw.mask, hw.batch, defineAll_std hms hw.std⟩
      have hall : ∀ d ∈ methodSymbols F cs c p ++ ds, ¬ StandardName d.1 := by
        intro d hd
        rcases List.mem_append.1 hd with hd | hd
        · exact hms d hd
        · exact hc.names d hd
      have hexp : Expands n (defineAll ds (defineAll (methodSymbols F cs c p) w.e.syms)) star x (touch (cs ++ [c])) := by
        refine expands_mono (hx cs c p hwf) fun y e hy => ?_
        rw [← defineAll_append, defineAll_last _ _ (y := y), hy]
        · rfl
        · rintro rfl
          unfold definitionIn at hy
          cases hf : List.find? (fun d => decide (d.1 = first)) (methodSymbols F cs c p ++ ds).reverse with
          | none => rw [hf] at hy; cases hy
          | some a =>
            have h1 := List.find?_some hf
            have h2 := List.mem_of_find?_eq_some hf
            exact hall a (List.mem_reverse.1 h2) (.inl (of_decide_eq_true h1))
      obtain ⟨N1, good, w1, g1, g2, g3, g4, g5, g6⟩ := stream_touch hA hw0 hp hc hexp
      cases hg : good with
      | false =>
        have hno : ¬ TrueTouch v.extents n (touch (cs ++ [c])) := fun h => by
          have := g5.2 h; rw [hg] at this; cases this
        obtain ⟨N, w', out, bad, h1, h2, h3, h4, h5⟩ := ih w1 g1
        refine ⟨max N1 N, w', out, bad, .drop hnot hne hno h1, h2, by rw [h3, g3], by rw [h4, g4], fun b d k hb hk => ?_⟩
        rw [List.map_cons, eachView, filterOne_good he hbr hnot, g6 b d k (by omega) hk, hg]
        exact h5 b d k (by omega) hk
      | true =>
        have hyes : TrueTouch v.extents n (touch (cs ++ [c])) := g5.1 hg
        obtain ⟨f, hf⟩ := format_some (by have := hA.bells.2; omega) hwf
        have hpay : F.payloadSymbol ≠ [] → w1.e.syms F.payloadSymbol = some (.str p {}) := by
          intro hps
          have hnf : F.payloadSymbol ≠ first := fun h => hF.payload.1 (.inl h)
          rw [g2, defineAll_other ds _ (fun d hd => hF.payload.2 d hd) hnf]
          show defineAll (methodSymbols F cs c p) w.e.syms F.payloadSymbol = _
          rw [defineAll_last _ _ hnf]
          unfold methodSymbols
          rw [definitionIn_append, if_neg hps]
          have e1 : definitionIn [(F.payloadSymbol, Expr.str p {})] F.payloadSymbol = some (.str p {}) := by
            unfold definitionIn; simp
          rw [e1]; rfl
        obtain ⟨w2, p1, p2, p3, -, p5⟩ := print_method hA g1 hf hpay
        obtain ⟨N, w', out, bad, h1, h2, h3, h4, h5⟩ := ih w2 p1
        refine ⟨max (max N1 1) N, w', _, bad, .keep hnot hne hyes hf h1, h2, ?_, by rw [h4, p3, g4], fun b d k hb hk => ?_⟩
        · rw [h3, p2, g3]; simp
        · rw [List.map_cons, eachView, filterOne_good he hbr hnot, g6 b d k (by omega) hk, hg]
          simp only [Ex.bind, if_true]
          rw [p5 b (by omega)]
          exact h5 b d k (by omega) hk

/-! ### From the start to the end -/

/-- `gsiril --filter` without arguments but the number of bells, the program and the names of symbols. -/
structure FilterBare (A : RArgs) (I : IArgs) (v : Env) (n : Nat) : Prop extends Clean A v n where
  some_bells : 0 < n
  rounds : v.rounds = []
  inits : I.noInit = false ∧ I.stringDefs = [] ∧ I.definitions = [] ∧ I.modules = []
  lengths : I.minLength = 0 ∧ I.maxLength = 0
  rowMask : I.rowMask = []
  batch : I.interactive = false

theorem filter_start {v : Env} {n : Nat} (h : FilterBare A I v n) : ∃ w, Filtering v n w ∧ w.e.out = [] ∧ w.reports = 0 ∧
    ∀ b d, ((contextC I v).bind fun _ w => initialise { A with budget := b } I d w) = .ok () w := by
  have e1 : MusicDetails.newC (if I.rowMask ≠ [] then I.rowMask else ['*']) 1 1 = .ok ⟨⟨['*'], 0⟩, 0, 0, 1, 1, []⟩ := by
    rw [h.rowMask]; decide
  have hdm : DefaultMask ⟨⟨['*'], 0⟩, 0, 0, 1, 1, []⟩ := by
    show MusicDetails.newC ['*'] 1 1 = .ok ⟨⟨['*'], 0⟩, 0, 0, 1, 1, []⟩
    decide
  obtain ⟨wa, hwa⟩ : ∃ wa : World, wa = { blankWorld I v with rmask := ⟨⟨['*'], 0⟩, 0, 0, 1, 1, []⟩, v := { v with rounds := List.range n } } := ⟨_, rfl⟩
  have hl := defineLine_whole (w := wa) (by rw [hwa]; rfl)
  obtain ⟨w0, hw0⟩ : ∃ w0 : World, w0 = setLength I.minLength I.maxLength
      { wa with e := { wa.e with syms := wa.e.syms.define "__line__".toList (.str (List.replicate wa.v.bells.toNat '-') {}) } } := ⟨_, rfl⟩
  have hctx : contextC I v = .ok () w0 := by
    unfold contextC
    rw [e1]
    have hb : (blankWorld I v).v.bells ≠ 0 := by
      have := h.bells.1
      have := h.some_bells
      show v.bells ≠ 0
      omega
    simp only [Ex.lift, Ex.bind]
    rw [if_pos hb]
    have e2 : ({ blankWorld I v with rmask := ⟨⟨['*'], 0⟩, 0, 0, 1, 1, []⟩, v := { (blankWorld I v).v with rounds := (if (blankWorld I v).v.rounds.length = 0 then
        Row.roundsC (blankWorld I v).v.bells.toNat else (blankWorld I v).v.rounds) } } : World) = wa := by
      rw [hwa, if_pos (by show v.rounds.length = 0; rw [h.rounds]; rfl)]
      show ({ blankWorld I v with rmask := _, v := { v with rounds := Row.roundsC v.bells.toNat } } : World) = _
      rw [h.bells.1, Int.toNat_natCast, Row.roundsC_eq (by have := h.bells.2; omega)]
      rfl
    rw [e2, hl, hw0]
  have v0 : w0.v = { v with maxLength := 0, rounds := List.range n } := by
    rw [hw0, hwa, h.lengths.2]; rfl
  have int0 : w0.interactive = false := by rw [hw0, hwa]; exact h.batch
  obtain ⟨w1, h1, ⟨tt, hos⟩, hstd, -, hfirst, hoth⟩ := C74_init A I 0 w0 h.inits.2.1 h.inits.2.2.1 h.inits.2.2.2
  have std1 : ∀ y e, (y, e) ∈ builtins ∨ (y, e) ∈ script → w1.e.syms y = some e := by
    intro y e hy
    refine hstd y e ?_ (by rw [v0]; intro h'; rw [show v.everyrowOnly = false from h.only] at h'; cases h')
    unfold standard
    rw [h.inits.1, if_neg (by simp)]
    rcases hy with hy | hy
    · exact List.mem_append_left _ hy
    · exact List.mem_append_right _ (List.mem_cons_of_mem _ hy)
  refine ⟨w1, ⟨by rw [hos]; exact v0, by rw [hos, hw0]; exact h.lengths.1, by rw [hos, hw0, hwa]; exact hdm, by rw [hos]; exact int0, std1⟩,
    by rw [hos, hw0, hwa]; rfl, by rw [hos, hw0, hwa]; rfl, fun b d => ?_⟩
  rw [hctx]
  show initialise _ I d w0 = _
  rw [← h1, initialise_eq, initialise_eq, h.inits.2.1, h.inits.2.2.1, h.inits.2.2.2]
  rfl

theorem entries_bells {n : Nat} (hn : 0 < n) {ls : List Str} {es : List (Int × Str × Str)} (h : LiteEntries n ls es) : ∀ e ∈ es, e.1 = n := by
  induction h with
  | nil => intro e h; cases h
  | blank _ _ ih => exact ih
  | other _ _ _ ih => exact ih
  | entry _ hw _ ih =>
    intro e h
    rcases List.mem_cons.1 h with rfl | h
    · rcases hw with ⟨h, -⟩ | ⟨-, h, -⟩
      · omega
      · exact h
    · exact ih e h

theorem Lib.entries_before_bad {req : Int} : ∀ (a : List Str) {c : List Str} {x y : Str} {b d : List Str} {ea ec : List (Int × Str × Str)},
    a ++ x :: b = c ++ y :: d → BadLine x → BadLine y → LiteEntries req a ea → LiteEntries req c ec → ea = ec := by
  have key : ∀ (a c : List Str) (x y : Str) (b d : List Str) (ea ec : List (Int × Str × Str)), a ++ x :: b = c ++ y :: d → BadLine x → BadLine y →
      LiteEntries req a ea → LiteEntries req c ec → a = c := by
    intro a
    induction a with
    | nil =>
      intro c x y b d ea ec e hx hy ha hc
      cases c with
      | nil => rfl
      | cons z c => injection e with e1 e2; subst e1; exact absurd hc (Lib.liteEntries_no_bad (ls1 := []) hx)
    | cons z a ih =>
      intro c x y b d ea ec e hx hy ha hc
      cases c with
      | nil => injection e with e1 e2; subst e1; exact absurd ha (Lib.liteEntries_no_bad (ls1 := []) hy)
      | cons w c =>
        injection e with e1 e2; subst e1
        congr 1
        have tl : ∀ {u : List Str} {eu}, LiteEntries req (z :: u) eu → ∃ eu', LiteEntries req u eu' := by
          intro u eu hu; cases hu with
          | blank _ h => exact ⟨_, h⟩
          | other _ _ h => exact ⟨_, h⟩
          | entry _ _ h => exact ⟨_, h⟩
        obtain ⟨_, ha'⟩ := tl ha
        obtain ⟨_, hc'⟩ := tl hc
        exact ih c x y b d _ _ e2 hx hy ha' hc'
  intro a c x y b d ea ec h hx hy ha hc
  obtain rfl := key _ _ _ _ _ _ _ _ h hx hy ha hc
  exact Lib.C60_unique ha hc

/-- The two ways the lines of a library can go: all can be read, or the first that cannot stands behind entries. -/
theorem filter_lines {n : Nat} {input : Str} (ht : input.head? ≠ some (Char.ofNat 0xEF)) {ls : List Str} (hl : Lines input ls) :
    (∀ es, LiteEntries n ls es → ∃ es', List.Forall₂ (Lib.Holds false) es' es ∧ ∀ (A : RArgs) d k text, ∀ j, es.length < j → ∀ w,
      filterC A F d k j text n input w = eachView (filterOne A F d k text) (es'.map Lib.lite.view) w) ∧
    (∀ ls1 bad ls2 es, ls = ls1 ++ bad :: ls2 → LiteEntries n ls1 es → BadLine bad → ∃ es', List.Forall₂ (Lib.Holds false) es' es ∧
      ∀ (A : RArgs) d k text, ∀ j, es.length < j → ∀ w,
      filterC A F d k j text n input w = (eachView (filterOne A F d k text) (es'.map Lib.lite.view) w).bind fun _ w => .err w) := by
  have hr := Lib.C60_stream n input ht false
  obtain ⟨s1, s2, s3, -⟩ := hr.start hl
  have hspec := filterLoop_spec (F := F) false _ ls le_rfl (Lib.lite.fresh (Lib.lite.start (Lib.Lite.ofStream n ⟨input, false, false⟩ false)))
    (Lib.lite.start (Lib.Lite.ofStream n ⟨input, false, false⟩ false)) s1 s3 (fun _ => rfl)
  rw [s2] at hspec
  constructor
  · intro es he
    rcases hspec with ⟨es0, b1, es', b2, b3⟩ | ⟨ls1, bad, ls2, es0, rfl, b2, b3, -⟩
    · rw [Lib.C60_unique b1 he] at b2 b3
      exact ⟨es', b2, b3⟩
    · exact absurd he (Lib.liteEntries_no_bad b3)
  · rintro ls1 bad ls2 es rfl he hb
    rcases hspec with ⟨es0, b1, -⟩ | ⟨ls3, bad', ls4, es0, b1, b2, b3, es', b4, b5⟩
    · exact absurd b1 (Lib.liteEntries_no_bad hb)
    · have := Lib.entries_before_bad _ b1 hb b3 he b2
      subst this
      exact ⟨es', b4, b5⟩

/-- **C75**: `gsiril --filter` prints those methods of its input for which the touch is true.  The program may define symbols and proves an
expression; for a method with the changes `cs` this expression, with the symbols for the method and those of the program, stands for the changes `touch cs`.
Of the entries of the input on the right number of bells those are printed in order, as compactly as possible and with their payload, for which no
row of the touch occurs too often and the last is rounds. -/
theorem C75_filter {v : Env} {n : Nat} {text input : Str} {ts : List Tok} {ds : List (Str × Expr)} {x : Expr} {star : Prop} {touch : List Change → List Change}
    (hB : FilterBare A I v n) (hF : FreeNames F ds) (hp : Program A text ts) (hc : Touch A ts n ds x)
    (hx : ∀ cs c p, (∀ ch ∈ cs ++ [c], ch.n = n ∧ IsChange ch.n ch.swaps) → Expands n (definitionIn (methodSymbols F cs c p ++ ds)) star x (touch (cs ++ [c])))
    (ht : input.head? ≠ some (Char.ofNat 0xEF)) {ls : List Str} (hl : Lines input ls) {es : List (Int × Str × Str)} (he : LiteEntries n ls es)
    (hbr : ∀ e ∈ es, '{' ∉ e.2.1) :
    ∃ N out bad w, Filtered n (fun cs => TrueTouch v.extents n (touch cs)) es out bad ∧ w.e.out = out ∧ w.reports = bad ∧
      ∀ b d k j, N ≤ b → ds.length + 1 < k → es.length < j → gsirilFilterC { A with budget := b } I F d k j v text input = .ok 0 w := by
  obtain ⟨w0, f0, o0, r0, h0⟩ := filter_start hB
  obtain ⟨es', hh, hf⟩ := (filter_lines (F := F) ht hl).1 es he
  obtain ⟨N, w', out, bad, h1, h2, h3, h4, h5⟩ := each_method hB.toClean hF hp hc hx hh
    (fun e h => ⟨entries_bells hB.some_bells he e h, hbr e h⟩) w0 f0
  refine ⟨N, out, bad, w', h1, by rw [h3, o0]; rfl, by rw [h4, r0]; omega, fun b d k j hb hk hj => ?_⟩
  have hall : (((contextC I v).bind fun _ w => initialise { A with budget := b } I d w).bind fun _ w =>
      filterC { A with budget := b } F d k j text v.bells input w) = .ok () w' := by
    rw [h0]
    show filterC _ F d k j text v.bells input w0 = _
    rw [hB.bells.1, hf _ _ _ _ j hj, h5 b d k hb hk]
  unfold gsirilFilterC
  rw [hall]

/-- **C75**: a line with something else than a number before a colon ends gsiril with exit code 2; what stands before it has been filtered. -/
theorem C75_bad_line {v : Env} {n : Nat} {text input : Str} {ts : List Tok} {ds : List (Str × Expr)} {x : Expr} {star : Prop}
    {touch : List Change → List Change}
    (hB : FilterBare A I v n) (hF : FreeNames F ds) (hp : Program A text ts) (hc : Touch A ts n ds x)
    (hx : ∀ cs c p, (∀ ch ∈ cs ++ [c], ch.n = n ∧ IsChange ch.n ch.swaps) → Expands n (definitionIn (methodSymbols F cs c p ++ ds)) star x (touch (cs ++ [c])))
    (ht : input.head? ≠ some (Char.ofNat 0xEF)) {ls1 ls2 : List Str} {line : Str} (hl : Lines input (ls1 ++ line :: ls2)) (hbad : BadLine line)
    {es : List (Int × Str × Str)} (he : LiteEntries n ls1 es) (hbr : ∀ e ∈ es, '{' ∉ e.2.1) :
    ∃ N out bad w, Filtered n (fun cs => TrueTouch v.extents n (touch cs)) es out bad ∧ w.e.out = out ∧ w.reports = bad + 1 ∧
      ∀ b d k j, N ≤ b → ds.length + 1 < k → es.length < j → gsirilFilterC { A with budget := b } I F d k j v text input = .ok 2 w := by
  obtain ⟨w0, f0, o0, r0, h0⟩ := filter_start hB
  obtain ⟨es', hh, hf⟩ := (filter_lines (F := F) ht hl).2 ls1 line ls2 es rfl he hbad
  obtain ⟨N, w', out, bad, h1, h2, h3, h4, h5⟩ := each_method hB.toClean hF hp hc hx hh
    (fun e h => ⟨entries_bells hB.some_bells he e h, hbr e h⟩) w0 f0
  refine ⟨N, out, bad, { w' with reports := w'.reports + 1 }, h1, by show w'.e.out = _; rw [h3, o0]; rfl, by show w'.reports + 1 = _; rw [h4, r0]; omega,
    fun b d k j hb hk hj => ?_⟩
  have hall : (((contextC I v).bind fun _ w => initialise { A with budget := b } I d w).bind fun _ w =>
      filterC { A with budget := b } F d k j text v.bells input w) = .err w' := by
    rw [h0]
    show filterC _ F d k j text v.bells input w0 = _
    rw [hB.bells.1, hf _ _ _ _ j hj, h5 b d k hb hk]
    rfl
  unfold gsirilFilterC
  rw [hall]

/-! ### The output is a library -/

theorem notation_unique {n : Nat} {pn : Str} {cs cs' : List Change} (h : Notation n pn cs) (h' : Notation n pn cs') : cs = cs' := by
  have h1 := (C18_meaning n pn cs).2 h
  have h2 := (C18_meaning n pn cs').2 h'
  rw [h1] at h2
  injection h2

/-- **C75**: what is printed and the number of error messages are determined by the entries. -/
theorem C75_unique {n : Nat} {P : List Change → Prop} {es : List (Int × Str × Str)} {out out' : Str} {bad bad' : Nat} (h : Filtered n P es out bad)
    (h' : Filtered n P es out' bad') : out = out' ∧ bad = bad' := by
  induction h generalizing out' bad' with
  | nil => cases h'; exact ⟨rfl, rfl⟩
  | bad h1 _ ih =>
    cases h' with
    | bad _ h => obtain ⟨rfl, rfl⟩ := ih h; exact ⟨rfl, rfl⟩
    | drop a b => exact absurd (h1 _ a) b
    | keep a b => exact absurd (h1 _ a) b
  | drop h1 h2 h3 _ ih =>
    cases h' with
    | bad a => exact absurd (a _ h1) h2
    | drop _ _ _ h => exact ih h
    | keep a _ c => rw [notation_unique h1 a] at h3; exact absurd c h3
  | keep h1 h2 h3 h4 _ ih =>
    cases h' with
    | bad a => exact absurd (a _ h1) h2
    | drop a _ c => rw [notation_unique h1 a] at h3; exact absurd h3 c
    | keep a _ _ d h =>
      obtain ⟨rfl, rfl⟩ := ih h
      rw [notation_unique h1 a] at h4
      unfold compact at h4 d
      rw [h4] at d
      injection d with d
      subst d
      exact ⟨rfl, rfl⟩

/-- **C75**: a printed method is read as the same method. -/
theorem C75_reads_back {n : Nat} (hn : n ≤ 33) {pn : Str} {cs : List Change} {f : Str} (hc : Notation n pn cs) (hf : compact n cs f) :
    Notation n f cs ∧ '{' ∉ f ∧ (∀ c ∈ f, ¬ Blank c ∧ c ≠ ':') ∧ (f.head? = some '&' ∨ f.head? = some '+') := by
  have hwf := C18_wellformed (by omega : n ≤ 255) ((C18_meaning n pn cs).2 hc)
  have hno : Method.has (Method.M_DASH ||| Method.M_SYMMETRY ||| Method.M_PLUS) Method.M_OMIT_LH = false := by decide
  have hplus : Method.has (Method.M_DASH ||| Method.M_SYMMETRY ||| Method.M_PLUS) Method.M_PLUS = true := by decide
  have hw : Method.WF ⟨n, cs⟩ := ⟨by show n ≤ 255; omega, fun c h => ⟨(hwf c h).2, (hwf c h).1⟩⟩
  obtain ⟨s, h1, h2, h3⟩ := hw.format_text (Method.M_DASH ||| Method.M_SYMMETRY ||| Method.M_PLUS) (by rw [hno]; simp)
  unfold compact at hf
  rw [hf] at h1
  injection h1 with h1
  subst h1
  rw [hno] at h2
  refine ⟨⟨[], f, by simp [White], rfl, h2⟩, h3 hn, fun c hc => ⟨fun hb => (Lib.format_noblank hf c hc).1 (Lib.blank_space hb), (Lib.format_noblank hf c hc).2⟩, ?_⟩
  unfold Method.formatC at hf
  dsimp only at hf
  obtain ⟨o, -, hf⟩ := Out.bind_eq_ok.1 hf
  cases o with
  | none =>
    dsimp only at hf
    obtain ⟨t, -, hf⟩ := Out.bind_eq_ok.1 hf
    injection hf with hf
    subst hf
    rw [if_pos hplus]
    exact .inr rfl
  | some k =>
    dsimp only at hf
    obtain ⟨t, -, hf⟩ := Out.bind_eq_ok.1 hf
    rw [if_neg (by rw [hno]; simp)] at hf
    obtain ⟨u, -, hf⟩ := Out.bind_eq_ok.1 hf
    injection hf with hf
    subst hf
    by_cases hk : k ≠ 0
    · rw [if_pos hk]; exact .inl rfl
    · rw [if_neg hk, if_pos hplus]; exact .inr rfl

/-- A text that can be the payload of an entry. -/
def PayloadText (p : Str) : Prop := '\n' ∉ p ∧ (∀ c, p.head? = some c → ¬ Blank c) ∧ (∀ c, p.getLast? = some c → ¬ Blank c)

theorem entries_payload {n : Int} {input : Str} {ls : List Str} (hl : Lines input ls) {es : List (Int × Str × Str)} (he : LiteEntries n ls es) :
    ∀ e ∈ es, PayloadText e.2.2 := by
  have hn : ∀ l ∈ ls, '\n' ∉ l := by
    clear he
    induction hl with
    | nil => intro l h; cases h
    | last _ h => intro l hl; rw [List.mem_singleton] at hl; subst hl; exact h
    | cons h _ ih =>
      intro l hl
      rcases List.mem_cons.1 hl with rfl | hl
      · exact h
      · exact ih l hl
  clear hl
  induction he with
  | nil => intro e h; cases h
  | blank _ _ ih => exact ih fun l h => hn l (List.mem_cons_of_mem _ h)
  | other _ _ _ ih => exact ih fun l h => hn l (List.mem_cons_of_mem _ h)
  | entry hline _ _ ih =>
    intro e h
    rcases List.mem_cons.1 h with rfl | h
    · obtain ⟨word, rest, ⟨gaps, rfl, -⟩, ⟨a, b, rfl, -, -, h3, h4⟩, -⟩ := hline
      refine ⟨fun hp => hn _ List.mem_cons_self ?_, h3, h4⟩
      show '\n' ∈ _
      have hp : '\n' ∈ _ := hp
      simp only [List.mem_append]
      exact .inr (.inl (.inr hp))
    · exact ih (fun l h => hn l (List.mem_cons_of_mem _ h)) e h

/-- **C75**: what is printed is a library, all of whose entries have the property. -/
theorem C75_library {n : Nat} (hn : 0 < n ∧ n ≤ 33) {P : List Change → Prop} {es : List (Int × Str × Str)} {out : Str} {bad : Nat}
    (h : Filtered n P es out bad) (hp : ∀ e ∈ es, PayloadText e.2.2) :
    ∃ ls es', Lines out ls ∧ LiteEntries n ls es' ∧ Filtered n P es' out 0 ∧ out.head? ≠ some (Char.ofNat 0xEF) ∧ ∀ e ∈ es', '{' ∉ e.2.1 := by
  induction h with
  | nil => exact ⟨[], [], .nil, .nil, .nil, by simp, by simp⟩
  | bad _ _ ih => exact ih fun e h => hp e (List.mem_cons_of_mem _ h)
  | drop _ _ _ _ ih => exact ih fun e h => hp e (List.mem_cons_of_mem _ h)
  | @keep b pn payload cs f es out k h1 h2 h3 h4 _ ih =>
    obtain ⟨ls, es', i1, i2, i3, i4, i5⟩ := ih fun e h => hp e (List.mem_cons_of_mem _ h)
    obtain ⟨p1, p2, p3⟩ := hp _ List.mem_cons_self
    obtain ⟨r1, r2, r3, r4⟩ := C75_reads_back hn.2 h1 h4
    refine ⟨(f ++ '\t' :: payload) :: ls, ((n : Int), f, payload) :: es', ?_, .entry (bells := none) ?_ ?_ i2, .keep r1 h2 h3 h4 i3, ?_, ?_⟩
    · refine Lines.cons (l := f ++ '\t' :: payload) ?_ i1
      intro h
      rcases List.mem_append.1 h with h | h
      · exact (r3 _ h).1 (.inr (.inr (.inr rfl)))
      · rcases List.mem_cons.1 h with h | h
        · exact absurd h (by decide)
        · exact p1 h
    · refine ⟨f, '\t' :: payload, ⟨[], rfl, by simp, fun c h => (r3 c h).1, ?_, ?_⟩, ⟨['\t'], [], by simp, ?_, by simp, p2, p3⟩,
        .inl ⟨rfl, fun h => (r3 _ h).2 rfl, rfl⟩⟩
      · cases f with
        | nil => rcases r4 with h | h <;> cases h
        | cons c f => exact ⟨c, rfl, fun hg => (r3 c List.mem_cons_self).1 (by rcases hg with h | h <;> simp [Blank, h])⟩
      · intro c h
        have : '\t' = c := by simpa using h
        exact .inr (.inl this.symm)
      · intro c h
        rw [List.mem_singleton] at h
        exact .inr (.inl h)
    · exact .inr ⟨by omega, rfl, .inl rfl⟩
    · cases f with
      | nil => rcases r4 with h | h <;> cases h
      | cons c f =>
        intro h
        have hc : c = Char.ofNat 0xEF := by simpa using h
        rcases r4 with h | h
        · have : c = '&' := by simpa using h
          rw [this] at hc; exact absurd hc (by decide)
        · have : c = '+' := by simpa using h
          rw [this] at hc; exact absurd hc (by decide)
    · intro e h
      rcases List.mem_cons.1 h with rfl | h
      · exact r2
      · exact i5 e h

/-- **C75**: filtering the output again with the same program gives the same output, without error messages. -/
theorem C75_again {v : Env} {n : Nat} {text input : Str} {ts : List Tok} {ds : List (Str × Expr)} {x : Expr} {star : Prop} {touch : List Change → List Change}
    (hB : FilterBare A I v n) (hF : FreeNames F ds) (hp : Program A text ts) (hc : Touch A ts n ds x)
    (hx : ∀ cs c p, (∀ ch ∈ cs ++ [c], ch.n = n ∧ IsChange ch.n ch.swaps) → Expands n (definitionIn (methodSymbols F cs c p ++ ds)) star x (touch (cs ++ [c])))
    (ht : input.head? ≠ some (Char.ofNat 0xEF)) {ls : List Str} (hl : Lines input ls) {es : List (Int × Str × Str)} (he : LiteEntries n ls es)
    (hbr : ∀ e ∈ es, '{' ∉ e.2.1) :
    ∃ N M w w', w'.e.out = w.e.out ∧ w'.reports = 0 ∧ ∀ b d k j, N ≤ b → ds.length + 1 < k → M < j →
      gsirilFilterC { A with budget := b } I F d k j v text input = .ok 0 w ∧
      gsirilFilterC { A with budget := b } I F d k j v text w.e.out = .ok 0 w' := by
  obtain ⟨N, out, bad, w, h1, rfl, -, h4⟩ := C75_filter (star := star) hB hF hp hc hx ht hl he hbr
  obtain ⟨ls', es', l1, l2, l3, l4, l5⟩ := C75_library ⟨hB.some_bells, hB.bells.2⟩ h1 (entries_payload hl he)
  obtain ⟨N', out', bad', w', k1, rfl, k3, k4⟩ := C75_filter (star := star) hB hF hp hc hx l4 l1 l2 l5
  obtain ⟨u1, u2⟩ := C75_unique k1 l3
  exact ⟨max N N', max es.length es'.length, w, w', u1, by rw [k3, u2], fun b d k j hb hk hj => ⟨h4 b d k j (by omega) hk (by omega), k4 b d k j (by omega) hk (by omega)⟩⟩

/-! ### Findings -/

/-- **C75**, refutation: with `--prove-one` the second method ends gsiril with code 2, because the proof of the first method counts. -/
theorem C75_prove_one_finding {d k n : Nat} {text : Str} {ts : List Tok} {ds : List (Str × Expr)} {x : Expr} {w : World} (h1 : A.proveOne = true)
    (hw : w.done = true ∧ w.interactive = false ∧ w.v.bells = n) (hp : Program A text ts) (hc : Touch A ts n ds x) (hk : ds.length < k)
    (hL : ReadersEnd (A.lits n)) (ht : AllTame A.T.msiril ts) : ∃ w', proveStream A d k (some text) w = .exit 2 w' ∧ w'.e.out = w.e.out := by
  obtain ⟨t1, t2, hb1, hb2, -⟩ := hc.reads
  have s1 : Steps A (importC A d) ds.length ts { w with failed := false } t1
      { { w with failed := false } with e := { w.e with syms := defineAll ds w.e.syms } } :=
    defs_steps (w := { w with failed := false }) (by show Definitions A w.v.bells ts ds t1; rw [hw.2.2]; exact hb1)
  obtain ⟨w1, hw1⟩ : ∃ w1 : World, w1 = { { w with failed := false } with e := { w.e with syms := defineAll ds w.e.syms } } := ⟨_, rfl⟩
  rw [← hw1] at s1
  have b1 : w1.v.bells = n := by rw [hw1]; exact hw.2.2
  have hf : Fails A (importC A d) t1 w1 t2 w1 := .exec (by rw [b1]; exact hb2) (by simp) (C71_prove_again x w1 h1 (by rw [hw1]; exact hw.1))
  refine ⟨{ w1 with reports := w1.reports + 1 }, ?_, by rw [hw1]⟩
  unfold proveStream readProgram runC
  simp only [program_open hp, Ex.lift, Ex.bind, hw.2.1]
  have hr := C72_fatal (c := 0) s1 hf (by rw [b1]; exact hL) ht hk
  rw [hw.2.1] at hr
  rw [if_neg (by simp), hr]

/-- **C75**, refutation: with `-P` and a program that only defines symbols, once something has been proved every method passes. -/
theorem C75_nothing_proved_finding {d k n : Nat} {text : Str} {ts t1 : List Tok} {ds : List (Str × Expr)} {w : World} (h1 : A.proveOne = false)
    (h2 : A.proveSymbol = first) (hw : w.done = true ∧ w.interactive = false ∧ w.v.bells = n) (hp : Program A text ts) (hd : Definitions A n ts ds t1)
    (ho : Over A n t1) (hk : ds.length < k) : ∃ w', proveStream A d k (some text) w = .ok true w' := by
  have s1 : Steps A (importC A d) ds.length ts { w with failed := false } t1
      { { w with failed := false } with e := { w.e with syms := defineAll ds w.e.syms } } :=
    defs_steps (w := { w with failed := false }) (by show Definitions A w.v.bells ts ds t1; rw [hw.2.2]; exact hd)
  exact ⟨_, stream_exit hp hw.2.1 s1 (by show Over A w.v.bells t1; rw [hw.2.2]; exact ho) hk (.inr ⟨h2, hw.1⟩) h1⟩

/-! ### Examples -/

def filterEnv : Env := { bells := 3, extents := 1, rounds := [], filter := true }

theorem exFilterBare : FilterBare bareArgs {} filterEnv 3 where
  bells := ⟨rfl, by omega⟩
  limit := rfl
  music := rfl
  text := write_plain
  only := rfl
  filter := rfl
  answers := rfl
  one := rfl
  proves := .inl rfl
  some_bells := by omega
  rounds := rfl
  inits := ⟨rfl, rfl, rfl, rfl⟩
  lengths := ⟨rfl, rfl⟩
  rowMask := rfl
  batch := rfl

/-- The tokens of a program that proves three leads. -/
def leadsToks : List Tok :=
  [.name "p".toList, .sym .assignment, .name "m".toList, .sym .comma, .name "lh".toList, .sym .newLine,
   .name "prove".toList, .num "3".toList, .name "p".toList, .sym .newLine]

theorem leadsProgram : Program bareArgs "p = m, lh\nprove 3 p".toList leadsToks := by
  obtain ⟨s, hs⟩ := exists_ended "p = m, lh\nprove 3 p".toList
  exact ⟨s, hs, (C70_reads _ hs _).1 (by decide +kernel)⟩

def leadsDefs : List (Str × Expr) := [("p".toList, .list (.sym "m".toList) (.sym "lh".toList))]

theorem not_standard {x : Str} (h : x ∉ (standard false false).map Prod.fst) (h1 : x ≠ first) (h2 : x ≠ "__line__".toList) (h3 : x ≠ "loop_counter".toList) :
    ¬ StandardName x := by
  rintro (h' | h' | h' | ⟨e, h'⟩)
  · exact h1 h'
  · exact h2 h'
  · exact h3 h'
  · exact h (List.mem_map.2 ⟨_, h', rfl⟩)

theorem leadsTouch : Touch bareArgs leadsToks 3 leadsDefs (.rep 3 (.sym "p".toList)) where
  names := by
    intro d hd
    unfold leadsDefs at hd
    rw [List.mem_singleton] at hd
    subst hd
    exact not_standard (by decide +kernel) (by decide) (by decide) (by decide)
  reads := by
    refine ⟨leadsToks.drop 5, leadsToks.drop 9, .cons ?_ .nil, ?_, ?_⟩
    · refine ⟨[[.name "p".toList, .sym .assignment, .name "m".toList, .sym .comma, .name "lh".toList]], .cons (nextCommand_inv rfl) .nil,
        .line (.assign .define ?_ ?_)⟩
      · rintro (⟨m, h⟩ | h | h | h)
        · generalize hp : "p".toList = p at h
          cases h <;> revert hp <;> decide
        · revert h; decide
        · revert h; decide
        · revert h; decide
      · refine spells_down (q := 1) (by omega) (.binary (l := [.name "m".toList]) .comma ?_ ?_) (by omega)
        · refine spells_down (le_refl 9) (.var ?_ ?_) (by omega)
          · rintro ⟨e, h⟩
            generalize hp : "m".toList = p at h
            cases h <;> revert hp <;> decide
          · unfold Prefix; decide
        · refine spells_down (le_refl 9) (.var ?_ ?_) (by omega)
          · rintro ⟨e, h⟩
            generalize hp : "lh".toList = p at h
            cases h <;> revert hp <;> decide
          · unfold Prefix; decide
    · refine ⟨[[.name "prove".toList, .num "3".toList, .name "p".toList]], .cons (nextCommand_inv rfl) .nil, .line (.prove ?_ ?_ (by simp))⟩
      · refine spells_down (le_refl 9) (.times three (.var ?_ ?_)) (by omega)
        · rintro ⟨e, h⟩
          generalize hp : "p".toList = p at h
          cases h <;> revert hp <;> decide
        · unfold Prefix; decide
      · intro y f _ h; cases h
    · exact .inl (by intro t ht; cases ht with | head => exact .inl (.inl rfl) | tail _ h => cases h)

theorem leadsFree : FreeNames {} leadsDefs where
  lh := not_standard (by decide +kernel) (by decide) (by decide) (by decide)
  lead := not_standard (by decide +kernel) (by decide) (by decide) (by decide)
  payload := ⟨not_standard (by decide +kernel) (by decide) (by decide) (by decide), by
    intro d hd
    unfold leadsDefs at hd
    rw [List.mem_singleton] at hd
    subst hd
    decide⟩

/-- Three leads. -/
def threeLeads (cs : List Change) : List Change := (List.replicate 3 cs).flatten

theorem leadsExpand (cs : List Change) (c : Change) (p : Str) (h : ∀ ch ∈ cs ++ [c], ch.n = 3 ∧ IsChange ch.n ch.swaps) :
    Expands 3 (definitionIn (methodSymbols {} cs c p ++ leadsDefs)) False (.rep 3 (.sym "p".toList)) (threeLeads (cs ++ [c])) := by
  refine .rep 3 (.sym _ (by decide) rfl (.list (.sym _ (by decide) rfl (.pn cs [] ?_)) (.sym _ (by decide) rfl (.pn [c] [] ?_))))
  · intro ch hc; have := h ch (List.mem_append_left _ hc); exact ⟨this.2, by omega⟩
  · intro ch hc; have := h ch (List.mem_append_right _ hc); exact ⟨this.2, by omega⟩

/-- Of plain hunting and a method with one change three leads of the first are true. -/
example : ∃ N w, w.e.out = "+3.1\thunt\n".toList ∧ w.reports = 1 ∧ ∀ b d k j, N ≤ b → 2 < k → 3 < j →
    gsirilFilterC { bareArgs with budget := b } {} {} d k j filterEnv "p = m, lh\nprove 3 p".toList "3.1 hunt\n3 three\n9 nine\n".toList = .ok 0 w := by
  have hl : Lines "3.1 hunt\n3 three\n9 nine\n".toList ["3.1 hunt".toList, "3 three".toList, "9 nine".toList] :=
    .cons (l := "3.1 hunt".toList) (by decide) (.cons (l := "3 three".toList) (by decide) (.cons (l := "9 nine".toList) (by decide) .nil))
  have he : LiteEntries ((3 : Nat) : Int) ["3.1 hunt".toList, "3 three".toList, "9 nine".toList]
      [(3, "3.1".toList, "hunt".toList), (3, "3".toList, "three".toList), (3, "9".toList, "nine".toList)] := by
    refine .entry (bells := none) ⟨"3.1".toList, " hunt".toList, ⟨[], rfl, by simp, by decide, ⟨'3', rfl, by decide⟩, by decide⟩,
      ⟨[' '], [], rfl, by decide, by simp, by decide, by decide⟩, .inl ⟨rfl, by decide, rfl⟩⟩ (.inr ⟨by decide, rfl, .inl rfl⟩) ?_
    refine .entry (bells := none) ⟨"3".toList, " three".toList, ⟨[], rfl, by simp, by decide, ⟨'3', rfl, by decide⟩, by decide⟩,
      ⟨[' '], [], rfl, by decide, by simp, by decide, by decide⟩, .inl ⟨rfl, by decide, rfl⟩⟩ (.inr ⟨by decide, rfl, .inl rfl⟩) ?_
    exact .entry (bells := none) ⟨"9".toList, " nine".toList, ⟨[], rfl, by simp, by decide, ⟨'9', rfl, by decide⟩, by decide⟩,
      ⟨[' '], [], rfl, by decide, by simp, by decide, by decide⟩, .inl ⟨rfl, by decide, rfl⟩⟩ (.inr ⟨by decide, rfl, .inl rfl⟩) .nil
  obtain ⟨N, out, bad, w, h1, h2, h3, h4⟩ := C75_filter (star := False) exFilterBare leadsFree leadsProgram leadsTouch leadsExpand (by decide) hl he (by decide)
  have n1 : Notation 3 "3.1".toList [⟨3, [0]⟩, ⟨3, [1]⟩] := (C18_meaning 3 _ _).1 (by decide +kernel)
  have n2 : Notation 3 "3".toList [⟨3, [0]⟩] := (C18_meaning 3 _ _).1 (by decide +kernel)
  have n3 : ∀ cs, Notation 3 "9".toList cs → cs = [] := by
    intro cs h
    have h := (C18_meaning 3 _ _).2 h
    have : PN.ofCStr 3 "9".toList = .throw .changeInvalid ∨ PN.ofCStr 3 "9".toList = .throw .bellInvalid := by decide +kernel
    rcases this with e | e <;> rw [e] at h <;> cases h
  have hf : Filtered 3 (fun cs => TrueTouch 1 3 (threeLeads cs)) [(3, "3.1".toList, "hunt".toList), (3, "3".toList, "three".toList), (3, "9".toList, "nine".toList)]
      "+3.1\thunt\n".toList 1 := by
    refine .keep (f := "+3.1".toList) n1 (by decide) ⟨.inr (by decide), by decide⟩ ?_ (.drop n2 (by decide) ?_ (.bad n3 .nil))
    · unfold compact; decide +kernel
    · rintro ⟨-, h⟩; revert h; decide
  obtain ⟨rfl, rfl⟩ := C75_unique h1 hf
  exact ⟨N, w, h2, h3, h4⟩

end Ringing.Siril
