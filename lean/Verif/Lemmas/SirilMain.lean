import Verif.Model.SirilMain
import Verif.Spec.SirilMain
import Verif.Props.SirilPrograms
/-
Lemmas for the beginning of gsiril.
-/
namespace Ringing.Siril
open Grammar Running

variable {A : RArgs} {imp : Str → World → Ex Unit} {ep : Policy}

/-- One definition after the other. -/
def defineAll (ds : List (Str × Expr)) (t : Table) : Table := ds.foldl (fun t d => t.defineFirst d.1 d.2) t

theorem defineFirst_same (t : Table) (x : Str) (e : Expr) : t.defineFirst x e x = some e := (defined_defineFirst t x e).here

theorem defineFirst_other (t : Table) {x y : Str} (e : Expr) (h : y ≠ x) (h' : y ≠ first) : t.defineFirst x e y = t y :=
  (defined_defineFirst t x e).others y h h'

theorem defineAll_other : ∀ (ds : List (Str × Expr)) (t : Table) {y : Str}, (∀ d ∈ ds, d.1 ≠ y) → y ≠ first → defineAll ds t y = t y
  | [], _, _, _, _ => rfl
  | d :: ds, t, y, h, h' => by
    show defineAll ds (t.defineFirst d.1 d.2) y = t y
    rw [defineAll_other ds _ (fun d hd => h d (List.mem_cons_of_mem _ hd)) h', defineFirst_other t _ (Ne.symm (h d List.mem_cons_self)) h']

theorem defineAll_append (a b : List (Str × Expr)) (t : Table) : defineAll (a ++ b) t = defineAll b (defineAll a t) := by
  unfold defineAll; rw [List.foldl_append]

theorem defineAll_mem : ∀ (ds : List (Str × Expr)) (t : Table), (ds.map Prod.fst).Nodup → first ∉ ds.map Prod.fst → ∀ d ∈ ds, defineAll ds t d.1 = some d.2
  | [], _, _, _, d, hd => absurd hd List.not_mem_nil
  | d0 :: ds, t, hn, hf, d, hd => by
    rw [List.map_cons, List.nodup_cons] at hn
    rw [List.map_cons, List.mem_cons, not_or] at hf
    rcases List.mem_cons.1 hd with rfl | hd
    · show defineAll ds (t.defineFirst d.1 d.2) d.1 = _
      rw [defineAll_other ds _ _ (Ne.symm hf.1), defineFirst_same]
      intro d' hd' he
      exact hn.1 (List.mem_map.2 ⟨d', hd', he⟩)
    · exact defineAll_mem ds _ hn.2 hf.2 d hd

theorem definitionIn_cons (d : Str × Expr) (ds : List (Str × Expr)) (y : Str) :
    definitionIn (d :: ds) y = (definitionIn ds y).or (if d.1 = y then some d.2 else none) := by
  unfold definitionIn
  rw [List.reverse_cons, List.find?_append]
  cases List.find? (fun d => decide (d.1 = y)) ds.reverse with
  | some a => rfl
  | none =>
    by_cases h : d.1 = y
    · simp [h]
    · simp [h]

/-- The last definition counts. -/
theorem defineAll_last : ∀ (ds : List (Str × Expr)) (t : Table) {y : Str}, y ≠ first → defineAll ds t y = (definitionIn ds y).or (t y)
  | [], _, _, _ => rfl
  | d :: ds, t, y, h => by
    show defineAll ds (t.defineFirst d.1 d.2) y = _
    rw [defineAll_last ds _ h, definitionIn_cons, Option.or_assoc]
    congr 1
    by_cases e : d.1 = y
    · subst e; rw [defineFirst_same]; simp
    · rw [defineFirst_other t _ (Ne.symm e) h, if_neg e]; rfl

theorem defs_steps {ts rest : List Tok} {ds : List (Str × Expr)} {w : World} (h : Definitions A w.v.bells ts ds rest) :
    Steps A imp ds.length ts w rest { w with e := { w.e with syms := defineAll ds w.e.syms } } := by
  obtain ⟨b, hb⟩ : ∃ b, b = w.v.bells := ⟨_, rfl⟩
  rw [← hb] at h
  induction h generalizing w with
  | nil => exact .nil
  | @cons ts x e ts1 ds rest h1 _ ih =>
    refine .cons (s := .define x e) (w1 := w.defineSym x e) (by rw [← hb]; exact h1) (by simp) (by rw [execS]) ?_
    exact ih (w := w.defineSym x e) hb

/-- The definitions at the beginning of a stream, as they are read. -/
inductive ReadsDefs (A : RArgs) (b : Int) : List Tok → List (Str × Expr) → List Tok → Prop
  | nil {ts} : ReadsDefs A b ts [] ts
  | cons {ts x e ts1 ds rest} : parseC (readingOf A b) ts = (.ok (.define x e), ts1) → ReadsDefs A b ts1 ds rest → ReadsDefs A b ts ((x, e) :: ds) rest

theorem loop_defs {b : Int} {ts rest : List Tok} {ds : List (Str × Expr)} (h : ReadsDefs A b ts ds rest) : ∀ {w : World} {n c : Nat}, w.v.bells = b →
    runLoop A imp ep (n + ds.length) ⟨ts, false⟩ c w =
      runLoop A imp ep n ⟨rest, false⟩ (c + ds.length) { w with e := { w.e with syms := defineAll ds w.e.syms } } := by
  induction h with
  | nil => intro w n c _; rfl
  | @cons ts x e ts1 ds rest h1 _ ih =>
    intro w n c hb
    have hr : readStmt A w.v.bells ⟨ts, false⟩ = (.ok (.define x e), ⟨ts1, false⟩) := by
      rw [readStmt_good, hb, h1]
    rw [List.length_cons, ← Nat.add_assoc, loop_ok hr (by simp) (w' := w.defineSym x e) (by rw [execS]), ih (w := w.defineSym x e) hb]
    congr 1
    omega

/-! ### The script -/

/-- The tokens of the script. -/
def initToks : List Tok := (tokensC {} initText).1

set_option maxRecDepth 100000 in
theorem init_tokens (T : TArgs) : tokensC T initText = (initToks, .ok ()) := by
  obtain ⟨a, b⟩ := T
  cases a
  · cases b
    · decide +kernel
    · decide +kernel
  · cases b
    · decide +kernel
    · decide +kernel

abbrev nm (s : String) : Tok := .name s.toList
abbrev st (s : String) : Tok := .lit .string s.toList
abbrev eq : Tok := .sym .assignment
abbrev cm : Tok := .sym .comma
abbrev nl : Tok := .sym .newLine

/-- The tokens of the script, written out. -/
def initToks' : List Tok :=
  [nm "__summary__", eq, st "# rows ending in @", nl,
   nm "__music__", eq, .sym .openParen, nm "__score__", eq, nm "music", .sym .openParen, .sym .closeParen, .sym .closeParen, cm, nl,
   .sym .openBrace, nm "__score__", .sym .greater, .num ['0'], .sym .colon, st "Music score: ${__score__}", .sym .closeBrace, nl,
   nm "true", eq, nm "__summary__", cm, st "Touch is true", cm, nm "__music__", nl,
   nm "notround", eq, nm "__summary__", cm, st "Is this OK?", nl,
   nm "false", eq, nm "__summary__", cm, st "Touch is false in $ rows", nl,
   nm "tooshort", eq, nm "__summary__", cm, st "Touch is too short: \\", cm, nl, st "at least ${min_length} rows expected", nl,
   nm "toolong", eq, st "Touch exceeds maximum length of ${max_length} rows$$", nl,
   nm "conflict", eq, nm "__summary__", cm, st "Touch not completed due to false row$$", nl,
   nm "rounds", eq, nl, nm "start", eq, nl, nm "finish", eq, nl, nm "abort", eq, nl, nm "everyrow", eq, nl]

set_option maxRecDepth 100000 in
theorem initToks_eq : initToks = initToks' := by decide +kernel

theorem i32_zero : i32 0 = 0 := by decide +kernel

/-- The tokens of the script behind the first definition. -/
def initRest : List Tok := initToks'.drop 3
/-- The tokens of the script behind the second definition. -/
def initRest' : List Tok := initToks'.drop 22

section
attribute [local irreducible] i32
set_option maxRecDepth 100000 in
theorem init_music (ms no : Bool) (L : Readers) : parseC ⟨ms, no, L⟩ initRest =
    (.ok (.define "__music__".toList (.list (.assign "__score__".toList (.call "music".toList []))
      (.ifMatch (.cmp (.sym "__score__".toList) (.int (i32 0)) .gt) (quote "Music score: ${__score__}") none))), initRest') := by
  cases ms <;> rfl
end

set_option maxRecDepth 100000 in
theorem init_reads' (ms no : Bool) (L : Readers) (A : RArgs) (b : Int) (hA : readingOf A b = ⟨ms, no, L⟩) :
    ReadsDefs A b initRest' (script.drop 2) [nl] := by
  cases ms
  · refine .cons (by rw [hA]; rfl) (.cons (by rw [hA]; rfl) (.cons (by rw [hA]; rfl)
      (.cons (by rw [hA]; rfl) (.cons (by rw [hA]; rfl) (.cons (by rw [hA]; rfl) (.cons (by rw [hA]; rfl) (.cons (by rw [hA]; rfl)
      (.cons (by rw [hA]; rfl) (.cons (by rw [hA]; rfl) (.cons (by rw [hA]; rfl) .nil))))))))))
  · refine .cons (by rw [hA]; rfl) (.cons (by rw [hA]; rfl) (.cons (by rw [hA]; rfl)
      (.cons (by rw [hA]; rfl) (.cons (by rw [hA]; rfl) (.cons (by rw [hA]; rfl) (.cons (by rw [hA]; rfl) (.cons (by rw [hA]; rfl)
      (.cons (by rw [hA]; rfl) (.cons (by rw [hA]; rfl) (.cons (by rw [hA]; rfl) .nil))))))))))

set_option maxRecDepth 100000 in
theorem init_summary (ms no : Bool) (L : Readers) : parseC ⟨ms, no, L⟩ initToks' =
    (.ok (.define "__summary__".toList (quote "# rows ending in @")), initRest) := by
  cases ms <;> rfl

theorem init_reads (A : RArgs) (b : Int) : ReadsDefs A b initToks' script [nl] := by
  have h1 := init_summary A.T.msiril A.noImport (A.lits b)
  have h2 := init_music A.T.msiril A.noImport (A.lits b)
  rw [i32_zero] at h2
  exact .cons h1 (.cons h2 (init_reads' _ _ _ A b rfl))

/-- Running the script defines its symbols and does nothing else. -/
theorem init_runs (A : RArgs) (d : Nat) (w : World) :
    runText A d initText w = .ok () { w with e := { w.e with syms := defineAll script w.e.syms } } := by
  have h1 : openSrc A initText = .ok ⟨initToks', false⟩ := by
    unfold openSrc
    rw [init_tokens, initToks_eq]
  have h2 : initToks'.length + 1 = 64 + 1 + script.length := by decide
  unfold runText
  simp only [h1, Ex.lift, Ex.bind]
  obtain ⟨src, hr⟩ := over_read (A := A) (b := w.v.bells) (ts := [nl]) (.inl (by simp [Separator]))
  have h3 := loop_eof (n := 64) (c := 0 + script.length) (imp := importC A d) (ep := .fatal)
    (w := { w with e := { w.e with syms := defineAll script w.e.syms } }) hr
  rw [h2, loop_defs (init_reads A w.v.bells) rfl]
  dsimp only at h3 ⊢
  rw [h3]

end Ringing.Siril
