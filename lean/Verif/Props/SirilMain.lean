import Verif.Lemmas.SirilMain
/-
C74: gsiril from its start to its exit code.
-/
namespace Ringing.Siril
open Grammar Running Spec Spec.Siril

variable {A : RArgs} {I : IArgs}

/-! ### What is defined at the beginning -/

theorem register_all : ∀ (fs : List (Str × Fn)) (w : World), fs.foldl (fun w f => w.defineSym f.1 (.fn f.2)) w =
    { w with e := { w.e with syms := defineAll (fs.map fun f => (f.1, .fn f.2)) w.e.syms } }
  | [], _ => rfl
  | f :: fs, w => by
    rw [List.foldl_cons, register_all fs]
    rfl

theorem register_eq (w : World) : registerFunctions w = { w with e := { w.e with syms := defineAll builtins w.e.syms } } := by
  have h : functions.map (fun f => (f.1, Expr.fn f.2)) = builtins := rfl
  rw [← h]
  exact register_all functions w

/-- The state behind the script. -/
def scripted (A : RArgs) (I : IArgs) (w : World) : World :=
  { w with e := { w.e with syms := defineAll (standard A.T.msiril I.noInit) w.e.syms } }

/-- The end of `initialise`. -/
def started (i : Bool) (w : World) : World :=
  let w := if w.v.everyrowOnly then w.defineSym "everyrow".toList (quote "@") else w
  { w with interactive := i, e := { w.e with syms := w.e.syms.undefine firstName } }

theorem initialise_eq (A : RArgs) (I : IArgs) (d : Nat) (w : World) : initialise A I d w =
    ((eachArg stringDef I.stringDefs (scripted A I { w with interactive := false })).bind fun _ w =>
     (eachArg (defArg A d) I.definitions w).bind fun _ w =>
     (eachArg (modArg A d) I.modules w)).bind fun _ w' => .ok () (started w.interactive w') := by
  have h : (if I.noInit then .ok () ((registerFunctions { w with interactive := false }).defineSym "__msiril__".toList (.bool A.T.msiril))
      else runText A d initText ((registerFunctions { w with interactive := false }).defineSym "__msiril__".toList (.bool A.T.msiril)) : Ex Unit) =
      .ok () (scripted A I { w with interactive := false }) := by
    rw [register_eq]
    unfold scripted standard
    cases I.noInit with
    | true => rw [if_pos rfl, if_pos rfl, defineAll_append]; rfl
    | false => rw [if_neg (by simp), if_neg (by simp), init_runs, defineAll_append]; rfl
  unfold initialise
  dsimp only
  rw [h]
  cases h1 : eachArg stringDef I.stringDefs (scripted A I { w with interactive := false }) with
  | ok u w1 =>
    simp only [Ex.bind, h1]
    cases h2 : eachArg (defArg A d) I.definitions w1 with
    | ok u w2 =>
      simp only
      cases h3 : eachArg (modArg A d) I.modules w2 with
      | ok u w3 => rfl
      | _ => rfl
    | _ => rfl
  | _ => simp only [Ex.bind, h1]

theorem standard_nodup (m n : Bool) : ((standard m n).map Prod.fst).Nodup ∧ first ∉ (standard m n).map Prod.fst := by
  cases m <;> cases n <;> decide +kernel

/-- **C74**: without further arguments gsiril starts with the standard definitions, in every mode: each of them has its meaning (but `everyrow` prints
the row with `-E`), nothing counts as the first definition, and no other symbol and nothing else is touched or printed. -/
theorem C74_init (A : RArgs) (I : IArgs) (d : Nat) (w : World) (h1 : I.stringDefs = []) (h2 : I.definitions = []) (h3 : I.modules = []) :
    ∃ w', initialise A I d w = .ok () w' ∧ OnlySymbols w w' ∧
      (∀ x e, (x, e) ∈ standard A.T.msiril I.noInit → (w.v.everyrowOnly = true → x ≠ "everyrow".toList) → w'.e.syms x = some e) ∧
      (w.v.everyrowOnly = true → w'.e.syms "everyrow".toList = some (quote "@")) ∧
      w'.e.syms first = none ∧
      (∀ y, ¬ StandardName y → w'.e.syms y = w.e.syms y) := by
  refine ⟨started w.interactive (scripted A I { w with interactive := false }), ?_, ?_, ?_, ?_, ?_, ?_⟩
  · rw [initialise_eq, h1, h2, h3]; rfl
  · unfold started scripted
    split <;> exact ⟨_, rfl⟩
  · intro x e hx hy
    have hm : x ≠ first := fun h => (standard_nodup A.T.msiril I.noInit).2 (List.mem_map.2 ⟨_, hx, h⟩)
    have hs := defineAll_mem (standard A.T.msiril I.noInit) w.e.syms (standard_nodup _ _).1 (standard_nodup _ _).2 _ hx
    unfold started scripted
    dsimp only
    split
    · rename_i he
      refine (undefine_other _ hm).trans ?_
      exact (defineFirst_other _ _ (hy he) hm).trans hs
    · exact (undefine_other _ hm).trans hs
  · intro he
    unfold started scripted
    rw [if_pos (by exact he)]
    refine (undefine_other (x := first) (y := "everyrow".toList) _ (by decide)).trans ?_
    exact defineFirst_same _ _ _
  · unfold started; dsimp only; exact undefine_same _ first
  · intro y hy
    have hm : y ≠ first := fun h => hy (.inl h)
    have hall : ∀ m n, ∀ d ∈ standard m n, d.1 ≠ y := by
      rintro m n ⟨x, e⟩ hd rfl
      have : x ∈ (standard false false).map Prod.fst := by
        have hx : x ∈ (standard m n).map Prod.fst := List.mem_map.2 ⟨_, hd, rfl⟩
        cases m <;> cases n <;> first | exact hx | (simp only [standard, List.map_append, List.map_cons, List.mem_append, List.mem_cons] at hx ⊢; tauto)
      obtain ⟨⟨x', e'⟩, h, rfl⟩ := List.mem_map.1 this
      exact hy (.inr (.inr (.inr ⟨e', h⟩)))
    have hs := defineAll_other (standard A.T.msiril I.noInit) w.e.syms (y := y) (hall _ _) hm
    unfold started scripted
    dsimp only
    split
    · refine (undefine_other _ hm).trans ?_
      refine (defineFirst_other _ _ ?_ hm).trans hs
      rintro rfl
      exact hall false false ("everyrow".toList, .nop) (List.mem_append_right _ (List.mem_cons_of_mem _ (by unfold script; simp))) rfl
    · exact (undefine_other _ hm).trans hs

/-- **C74**, a finding: `crus` stands for the same function as `runs`; there is no way to call the function that counts CRUs. -/
theorem C74_crus_finding (A : RArgs) (I : IArgs) (d : Nat) (w : World) (h1 : I.stringDefs = []) (h2 : I.definitions = []) (h3 : I.modules = []) :
    ∃ w', initialise A I d w = .ok () w' ∧ w'.e.syms "crus".toList = w'.e.syms "runs".toList ∧
      w'.e.syms "crus".toList = some (.fn (.runs .anywhere)) := by
  obtain ⟨w', h, -, hs, -, -, -⟩ := C74_init A I d w h1 h2 h3
  have hc : ("crus".toList, Expr.fn (.runs .anywhere)) ∈ standard A.T.msiril I.noInit := List.mem_append_left _ (by unfold builtins; simp)
  have hr : ("runs".toList, Expr.fn (.runs .anywhere)) ∈ standard A.T.msiril I.noInit := List.mem_append_left _ (by unfold builtins; simp)
  exact ⟨w', h, by rw [hs _ _ hc fun _ => by decide, hs _ _ hr fun _ => by decide], hs _ _ hc fun _ => by decide⟩

/-! ### The arguments that define something -/

/-- **C74**: `-S name=value` defines the name as that text, without looking for `@`, `#` and `$` in it; the value may contain further `=`. -/
theorem C74_string (x s : Str) (w : World) (h : '=' ∉ x) : ∃ w', stringDef (x ++ '=' :: s) w = .ok () w' ∧ OnlySymbols w w' ∧
    Defined w.e.syms w'.e.syms x (.str s {}) (w.e.syms x = none) := by
  have e1 : (x ++ '=' :: s).takeWhile (· ≠ '=') = x := by
    rw [List.takeWhile_append_of_pos (by intro c hc; simpa using fun h' : c = '=' => h (h' ▸ hc)), List.takeWhile_cons_of_neg (by simp)]; simp
  have e2 : (x ++ '=' :: s).dropWhile (· ≠ '=') = '=' :: s := by
    rw [List.dropWhile_append_of_pos (by intro c hc; simpa using fun h' : c = '=' => h (h' ▸ hc)), List.dropWhile_cons_of_neg (by simp)]
  refine ⟨w.defineSym x (.str s {}), ?_, ⟨_, rfl⟩, defined_defineFirst _ _ _⟩
  unfold stringDef
  rw [if_neg (by simp), e1, e2]
  rfl

/-- **C74**: and without `=` it ends gsiril with code 2. -/
theorem C74_string_bad (s : Str) (w : World) (h : '=' ∉ s) : stringDef s w = .exit 2 w := by
  unfold stringDef; rw [if_pos h]

/-- The definitions among the statements. -/
inductive Defining : Stmt → Prop
  | define {x e} : Defining (.define x e)
  | dflt {x e} : Defining (.dflt x e)
  | immediate {x e} : Defining (.immediate x e)

theorem defining_iff (s : Stmt) : s.isDefinition = true ↔ Defining s := by
  constructor
  · intro h
    cases s <;> first | exact .define | exact .dflt | exact .immediate | cases h
  · intro h; cases h <;> rfl

/-- **C74**: `-D` with one definition executes it. -/
theorem C74_definition {d : Nat} {s : Str} {ts rest : List Tok} {st : Stmt} {w w' : World} (hp : Program A s ts) (hb : Begins A w.v.bells ts st rest)
    (hd : Defining st) (he : execS A (importC A d) st w = .ok () w') (ho : Over A w'.v.bells rest) : defArg A d s w = .ok () w' := by
  obtain ⟨src, hr⟩ := over_read ho
  unfold defArg
  simp only [program_open hp, Ex.lift, Ex.bind, begins_read hb, (defining_iff st).2 hd, if_true, he, hr]

/-- **C74**: with something else it ends gsiril with code 3, and nothing is executed. -/
theorem C74_definition_bad {d : Nat} {s : Str} {ts rest : List Tok} {st : Stmt} {w : World} (hp : Program A s ts) (hb : Begins A w.v.bells ts st rest)
    (hd : ¬ Defining st) : defArg A d s w = .exit 3 w := by
  have hf : st.isDefinition = false := by
    cases h : st.isDefinition with
    | false => rfl
    | true => exact absurd ((defining_iff st).1 h) hd
  unfold defArg
  simp only [program_open hp, Ex.lift, Ex.bind, begins_read hb, hf]
  rfl

/-- **C74**: with a definition and more behind it, it ends gsiril with code 3 too, after the definition. -/
theorem C74_definition_more {d : Nat} {s : Str} {ts rest rest' : List Tok} {st st' : Stmt} {w w' : World} (hp : Program A s ts)
    (hb : Begins A w.v.bells ts st rest) (hd : Defining st) (he : execS A (importC A d) st w = .ok () w') (hb' : Begins A w'.v.bells rest st' rest')
    (hn : st' ≠ .eof) : defArg A d s w = .exit 3 w' := by
  unfold defArg
  simp only [program_open hp, Ex.lift, Ex.bind, begins_read hb, (defining_iff st).2 hd, if_true, he, begins_read hb']

/-- **C74**: `-m` runs the module: all its statements, or to the first that fails, which ends gsiril with code 2; the module must be there. -/
theorem C74_module {d : Nat} {s : Str} {w : World} :
    (A.files s = none → modArg A d s w = .err w) ∧
    (∀ {text ts k rest w'}, A.files s = some text → Program A text ts → Steps A (importC A d) k ts w rest w' → Over A w'.v.bells rest →
      modArg A d s w = .ok () w') ∧
    (∀ {text ts k ts1 w1 rest w'}, A.files s = some text → Program A text ts → Steps A (importC A d) k ts w ts1 w1 →
      Fails A (importC A d) ts1 w1 rest w' → ReadersEnd (A.lits w1.v.bells) → AllTame A.T.msiril ts →
      modArg A d s w = .exit 2 { w' with reports := w'.reports + 1 }) := by
  have hk : ∀ {k ts rest w w'}, Steps A (importC A d) k ts w rest w' → k ≤ ts.length := by
    intro k ts rest w w' h
    induction h with
    | nil => omega
    | cons hb hs _ _ ih => have := begins_length hb (begins_nonempty hb hs); omega
  refine ⟨?_, ?_, ?_⟩
  · intro h
    unfold modArg; rw [h]
  · intro text ts k rest w' hf hp hs ho
    unfold modArg runText
    simp only [hf, program_open hp, Ex.lift, Ex.bind, C72_run hs ho (Nat.lt_succ_of_le (hk hs))]
  · intro text ts k ts1 w1 rest w' hf hp hs hx hL ht
    unfold modArg runText
    simp only [hf, program_open hp, Ex.lift, Ex.bind, C72_fatal hs hx hL ht (Nat.lt_succ_of_le (hk hs))]

/-- Each of the arguments is accepted, one after the other. -/
inductive OneByOne (f : Str → World → Ex Unit) : List Str → World → World → Prop
  | nil {w} : OneByOne f [] w w
  | cons {s ss w w1 w'} : f s w = .ok () w1 → OneByOne f ss w1 w' → OneByOne f (s :: ss) w w'

theorem eachArg_iff {f : Str → World → Ex Unit} {l : List Str} {w w' : World} : eachArg f l w = .ok () w' ↔ OneByOne f l w w' := by
  constructor
  · intro h
    induction l generalizing w with
    | nil => cases h; exact .nil
    | cons s ss ih =>
      rw [eachArg] at h
      cases h1 : f s w with
      | ok u w1 => rw [h1] at h; exact .cons h1 (ih h)
      | _ => rw [h1] at h; cases h
  · intro h
    induction h with
    | nil => rfl
    | cons h1 _ ih => rw [eachArg, h1]; exact ih

/-- **C74**: with arguments gsiril starts if they are all accepted: first the texts (`-S`), then the definitions (`-D`), then the modules (`-m`), in the
order in which they are given; what they define does not count as the first definition. -/
theorem C74_arguments {d : Nat} {w w' : World} : initialise A I d w = .ok () w' ↔ ∃ w1 w2 w3,
    OneByOne stringDef I.stringDefs (scripted A I { w with interactive := false }) w1 ∧ OneByOne (defArg A d) I.definitions w1 w2 ∧
    OneByOne (modArg A d) I.modules w2 w3 ∧ w' = started w.interactive w3 := by
  rw [initialise_eq]
  constructor
  · intro h
    cases h1 : eachArg stringDef I.stringDefs (scripted A I { w with interactive := false }) with
    | ok u w1 =>
      rw [h1] at h
      cases h2 : eachArg (defArg A d) I.definitions w1 with
      | ok u w2 =>
        cases h3 : eachArg (modArg A d) I.modules w2 with
        | ok u w3 =>
          simp only [Ex.bind, h2, h3] at h
          cases h
          exact ⟨w1, w2, w3, eachArg_iff.1 h1, eachArg_iff.1 h2, eachArg_iff.1 h3, rfl⟩
        | _ => simp only [Ex.bind, h2, h3] at h; cases h
      | _ => simp only [Ex.bind, h2] at h; cases h
    | _ => rw [h1] at h; cases h
  · rintro ⟨w1, w2, w3, h1, h2, h3, rfl⟩
    simp only [Ex.bind, eachArg_iff.2 h1, eachArg_iff.2 h2, eachArg_iff.2 h3]

theorem eachArg_exit {f : Str → World → Ex Unit} {l1 l2 : List Str} {s : Str} {w w1 w2 : World} {c : Nat} (h : OneByOne f l1 w w1)
    (hs : f s w1 = .exit c w2) : eachArg f (l1 ++ s :: l2) w = .exit c w2 := by
  induction h with
  | nil => rw [List.nil_append, eachArg, hs]; rfl
  | cons h1 _ ih => rw [List.cons_append, eachArg, h1]; exact ih hs

/-- **C74**: the first of the arguments that ends gsiril does so with its code (2 for `-S`, `C74_string_bad`; 3 for `-D`, `C74_definition_bad` and
`C74_definition_more`; that of the module for `-m`, `C74_module`), before the program is looked at. -/
theorem C74_arguments_exit {d n c : Nat} {v : Env} {text : Option Str} {w w1 w2 w3 w4 : World} (hw : contextC I v = .ok () w) :
    (∀ {l1 l2 s}, I.stringDefs = l1 ++ s :: l2 → OneByOne stringDef l1 (scripted A I { w with interactive := false }) w1 →
      '=' ∉ s → gsirilC A I d n v text = .ok 2 w1) ∧
    (OneByOne stringDef I.stringDefs (scripted A I { w with interactive := false }) w1 →
      (∀ {l1 l2 s}, I.definitions = l1 ++ s :: l2 → OneByOne (defArg A d) l1 w1 w2 → defArg A d s w2 = .exit c w3 →
        gsirilC A I d n v text = .ok c w3) ∧
      (∀ {l1 l2 s}, OneByOne (defArg A d) I.definitions w1 w2 → I.modules = l1 ++ s :: l2 → OneByOne (modArg A d) l1 w2 w3 →
        modArg A d s w3 = .exit c w4 → gsirilC A I d n v text = .ok c w4)) := by
  have hi : ∀ {c w'}, initialise A I d w = .exit c w' → gsirilC A I d n v text = .ok c w' := by
    intro c w' h
    unfold gsirilC
    simp only [hw, Ex.bind, h]
  refine ⟨fun {l1 l2 s} hl h1 hs => hi ?_, fun h1 => ⟨fun {l1 l2 s} hl h2 hs => hi ?_, fun {l1 l2 s} h2 hl h3 hs => hi ?_⟩⟩
  · rw [initialise_eq, hl, eachArg_exit h1 (C74_string_bad s w1 hs)]; rfl
  · rw [initialise_eq, eachArg_iff.2 h1, hl]
    simp only [Ex.bind, eachArg_exit h2 hs]
  · rw [initialise_eq, eachArg_iff.2 h1, hl]
    simp only [Ex.bind, eachArg_iff.2 h2, eachArg_exit h3 hs]

/-! ### From the text of a program to the exit code -/

/-- gsiril is run with no arguments but those that say which mode it is in, how many extents there are and how quiet it is. -/
structure Bare (A : RArgs) (I : IArgs) (v : Env) : Prop where
  bells : v.bells = 0
  rounds : v.rounds = []
  limit : v.nodeLimit = 0
  music : v.music = Music.new v.music.b
  text : ∀ b, '\\' ∉ v.bellText b
  only : v.everyrowOnly = false
  filter : v.filter = false
  lengths : I.minLength = 0 ∧ I.maxLength = 0
  mask : I.rowMask = []
  inits : I.noInit = false ∧ I.stringDefs = [] ∧ I.definitions = [] ∧ I.modules = []
  batch : I.interactive = false
  answers : A.determineBells = false
  proves : A.proveSymbol = [] ∨ A.proveSymbol = first

theorem expands_mono {b : Nat} {t t' : Table} {star : Prop} {x : Expr} {cs : List Change} (h : Expands b t star x cs)
    (ht : ∀ y e, t y = some e → t' y = some e) : Expands b t' star x cs := by
  induction h with
  | nop h => exact .nop h
  | pn cs n h => exact .pn cs n h
  | list _ _ h1 h2 => exact .list h1 h2
  | rep k _ h => exact .rep k h
  | times k h1 h2 _ h => exact .times k h1 h2 h
  | rev _ h => exact .rev h
  | sym n h1 h2 _ h => exact .sym n h1 (ht _ _ h2) h

theorem standard_defaults {t : Table} (h : ∀ x e, (x, e) ∈ builtins ∨ (x, e) ∈ script → t x = some e) : Defaults t where
  summary := h _ _ (.inr (by unfold script; simp [quoted, quote]))
  score := h _ _ (.inr (by unfold script; simp [quoted, quote]))
  music := h _ _ (.inl (by unfold builtins; simp))
  isTrue := h _ _ (.inr (by unfold script; simp [quoted, quote, summary]))
  notround := h _ _ (.inr (by unfold script; simp [quoted, quote, summary]))
  isFalse := h _ _ (.inr (by unfold script; simp [quoted, quote, summary]))
  conflict := h _ _ (.inr (by unfold script; simp [quoted, quote, summary]))
  rounds := h _ _ (.inr (by unfold script; simp))
  start := h _ _ (.inr (by unfold script; simp))
  finish := h _ _ (.inr (by unfold script; simp))
  abort := h _ _ (.inr (by unfold script; simp))
  everyrow := h _ _ (.inr (by unfold script; simp))


/-- What a program with one proof answers and prints: the exit code and the report. -/
def Answer (v : Env) (n : Nat) (rows : List Row) (c : Nat) (out : Str) : Prop :=
  (∃ (k : Nat) (h : k < rows.length), NoRowTooOften v.extents (rows.take k) ∧ ¬ NoRowTooOften v.extents (rows.take (k + 1)) ∧
      c = 1 ∧ out = shown v (report v.bellText (k + 1) rows[k] "Touch not completed due to false row")) ∨
  (NoRowTooOften v.extents rows ∧ lastOf (List.range n) rows ≠ List.range n ∧ c = 1 ∧
      out = shown v (report v.bellText rows.length (lastOf (List.range n) rows) "Is this OK?")) ∨
  (NoRowTooOften v.extents rows ∧ lastOf (List.range n) rows = List.range n ∧ c = 0 ∧
      out = if v.quiet ≠ 0 then [] else report v.bellText rows.length (List.range n) "Touch is true")

theorem context_bare {v : Env} (h : Bare A I v) : ∃ w, contextC I v = .ok () w ∧ w.v = { v with maxLength := 0 } ∧ w.minLength = 0 ∧
    DefaultMask w.rmask ∧ w.e.out = [] ∧ w.interactive = false ∧ w.done = false ∧ w.failed = false := by
  have e1 : MusicDetails.newC (if I.rowMask ≠ [] then I.rowMask else ['*']) 1 1 = .ok ⟨⟨['*'], 0⟩, 0, 0, 1, 1, []⟩ := by
    rw [h.mask]; decide
  refine ⟨setLength I.minLength I.maxLength { blankWorld I v with rmask := ⟨⟨['*'], 0⟩, 0, 0, 1, 1, []⟩ }, ?_, ?_, ?_, ?_, ?_, ?_, ?_, ?_⟩
  · unfold contextC
    rw [e1]
    have hb : ¬ (blankWorld I v).v.bells ≠ 0 := by
      have := h.bells
      simpa [blankWorld] using this
    simp only [Ex.lift, Ex.bind]
    rw [if_neg hb]
  · show ({ v with maxLength := I.maxLength } : Env) = _
    rw [h.lengths.2]
  · exact h.lengths.1
  · show MusicDetails.newC ['*'] 1 1 = .ok ⟨⟨['*'], 0⟩, 0, 0, 1, 1, []⟩
    decide
  · rfl
  · exact h.batch
  · rfl
  · rfl

/-- **C74**: from the text of a program to the answer.  If gsiril is run without arguments on a program that says how many bells there are, defines
symbols of its own and proves an expression that stands for the changes `cs`, then it ends, with the exit code and the output that the rows of these
changes deserve. -/
theorem C74_touch {v : Env} {text : Str} {ts : List Tok} {n : Nat} {ds : List (Str × Expr)} {x : Expr} {star : Prop} {cs : List Change}
    (hB : Bare A I v) (hp : Program A text ts) (hc : Composition A ts n ds x) (hx : Expands n (definitionIn ds) star x cs) :
    ∃ N, ∀ b d k, N ≤ b → ds.length + 2 < k → ∃ c w, gsirilC { A with budget := b } I d k v (some text) = .ok c w ∧
      Answer v n (rowsFrom (List.range n) (cs.map (·.swaps))) c w.e.out := by
  obtain ⟨t1, t2, t3, hb1, hb2, hb3, ho⟩ := hc.reads
  obtain ⟨w0, hw0, v0, ml0, rm0, out0, int0, done0, fail0⟩ := context_bare hB
  -- the beginning
  have init : ∀ A' d, A'.T = A.T → ∃ w1, initialise A' I d w0 = .ok () w1 ∧ w1 = started false (scripted A I { w0 with interactive := false }) := by
    intro A' d hT
    refine ⟨_, ?_, rfl⟩
    rw [initialise_eq, hB.inits.2.1, hB.inits.2.2.1, hB.inits.2.2.2, int0]
    unfold scripted
    rw [hT]
    rfl
  obtain ⟨w1, hw1⟩ : ∃ w1, w1 = started false (scripted A I { w0 with interactive := false }) := ⟨_, rfl⟩
  obtain ⟨w1', h1, ⟨tt, hos⟩, hstd, -, hfirst, hoth⟩ := C74_init A I 0 w0 hB.inits.2.1 hB.inits.2.2.1 hB.inits.2.2.2
  have e1 : w1' = w1 := by
    obtain ⟨w2, h2, h3⟩ := init A 0 rfl
    rw [h1] at h2
    cases h2
    rw [h3, hw1]
  subst e1
  have only0 : w0.v.everyrowOnly = false := by rw [v0]; exact hB.only
  have std1 : ∀ y e, (y, e) ∈ builtins ∨ (y, e) ∈ script → w1'.e.syms y = some e := by
    intro y e hy
    refine hstd y e ?_ (by rw [only0]; intro h; cases h)
    unfold standard
    rw [hB.inits.1, if_neg (by simp)]
    rcases hy with hy | hy
    · exact List.mem_append_left _ hy
    · exact List.mem_append_right _ (List.mem_cons_of_mem _ hy)
  have w1v : w1'.v = { v with maxLength := 0 } := by rw [hos]; exact v0
  have w1o : w1'.e.out = [] := by rw [hos]; exact out0
  have w1i : w1'.interactive = false := by rw [hos]; exact int0
  have w1d : w1'.done = false := by rw [hos]; exact done0
  have w1m : w1'.minLength = 0 := by rw [hos]; exact ml0
  have w1r : DefaultMask w1'.rmask := by rw [hos]; exact rm0
  have whole : WholeRow w1'.rmask := by
    have e1 : MusicDetails.newC ['*'] 1 1 = .ok ⟨⟨['*'], 0⟩, 0, 0, 1, 1, []⟩ := by decide
    have := w1r
    unfold DefaultMask at this
    rw [e1] at this
    injection this with this
    rw [← this]; rfl
  -- the number of bells
  have hr0 : IsRow w1'.v.rounds := by
    rw [w1v]; show IsRow v.rounds
    rw [hB.rounds]
    exact ⟨by simp, by intro b hb; simp at hb⟩
  obtain ⟨w2, h2, v2, -, sy2, out2, w2e⟩ := (C71_bells (A := A) (imp := importC A 0) n { w1' with failed := false }).2 ⟨by have := hc.bells.1; omega, by have := hc.bells.2; omega⟩ whole hr0
  have rounds2 : w2.v.rounds = List.range n := by
    rw [v2]
    show roundsFor n w1'.v.rounds = _
    rw [w1v]
    show roundsFor n v.rounds = _
    rw [hB.rounds]
    unfold roundsFor
    rw [if_pos (by simp)]
    simp [List.range_eq_range']
  have v2' : w2.v = { v with maxLength := 0, bells := n, rounds := List.range n } := by
    have : w2.v = { w2.v with rounds := List.range n } := by rw [← rounds2]
    rw [this, v2]
    show ({ w1'.v with bells := (n : Int), rounds := List.range n } : Env) = _
    rw [w1v]
  have o2 : w2.e.out = [] := by
    rw [out2, if_neg]
    · show w1'.e.out ++ [] = []
      rw [w1o]; rfl
    · intro h
      have := h.1
      have hz : w1'.v.rounds = [] := by rw [w1v]; exact hB.rounds
      change n < w1'.v.rounds.length at this
      rw [hz] at this
      simp at this
  obtain ⟨w3, hw3⟩ : ∃ w3 : World, w3 = { w2 with e := { w2.e with syms := defineAll ds w2.e.syms } } := ⟨_, rfl⟩
  have t3def : ∀ y, y ≠ first → w3.e.syms y = (definitionIn ds y).or (w2.e.syms y) := by
    intro y hy
    rw [hw3]
    exact defineAll_last ds w2.e.syms hy
  have dnames : ∀ y e, definitionIn ds y = some e → ¬ StandardName y := by
    intro y e h
    unfold definitionIn at h
    cases hf : List.find? (fun d => decide (d.1 = y)) ds.reverse with
    | none => rw [hf] at h; cases h
    | some a =>
      have h1 := List.find?_some hf
      have h2 := List.mem_of_find?_eq_some hf
      rw [← of_decide_eq_true h1]
      exact hc.names a (List.mem_reverse.1 h2)
  have def3 : Defaults w3.e.syms := by
    refine standard_defaults fun y e hy => ?_
    have hs : (y, e) ∈ standard false false := by
      unfold standard
      rcases hy with hy | hy
      · exact List.mem_append_left _ hy
      · exact List.mem_append_right _ (List.mem_cons_of_mem _ hy)
    have hm : y ∈ (standard false false).map Prod.fst := List.mem_map.2 ⟨_, hs, rfl⟩
    have hf : y ≠ first := fun h => (standard_nodup false false).2 (h ▸ hm)
    have hl : y ≠ "__line__".toList := fun h => absurd (h ▸ hm) (by decide +kernel)
    rw [t3def y hf]
    cases hd : definitionIn ds y with
    | some e' => exact absurd (.inr (.inr (.inr ⟨e, hs⟩))) (dnames y e' hd)
    | none =>
      rw [Option.none_or, sy2 y hl]
      exact std1 y e hy
  have hx3 : Expands n w3.e.syms star x cs := expands_mono hx fun y e h => by
    rw [t3def y (fun hf => dnames y e h (.inl hf)), h]; rfl
  -- the proof
  have v3 : w3.v = { v with maxLength := 0, bells := n, rounds := List.range n } := by rw [hw3]; exact v2'
  have row3 : IsRow w3.v.rounds := by
    rw [v3]
    exact (isRow_iff_valid _).2 (Row.valid_rounds (by have := hc.bells.2; omega))
  have rm2 : w2.rmask = w1'.rmask := by rw [w2e]
  have ord : Ordered w3 :=
    ⟨by rw [v3]; exact hB.limit, row3, by rw [v3]; simp, by rw [hw3]; show DefaultMask w2.rmask; rw [rm2]; exact w1r⟩
  obtain ⟨m, henv, hshow⟩ := ordered_env ord
  have plain : Plain { w3.v with mask := m } :=
    { limit := ord.limit
      music := by rw [v3]; exact hB.music
      max := by rw [v3]
      row := row3
      bells := ord.bells
      mask := hshow
      text := by rw [v3]; exact hB.text
      only := by rw [v3]; exact hB.only }
  obtain ⟨N, hN⟩ := C59_report plain def3 hx3 (b := n) (by rw [v3]; simp) w3.e rfl (noState w3.e) _ rfl
  refine ⟨N, fun b d k hb hk => ?_⟩
  obtain ⟨r, s, hprove, -, hans⟩ := hN b hb
  have d3 : w3.done = false := by rw [hw3]; show w2.done = false; rw [w2e]; exact w1d
  have f3 : w3.failed = false := by rw [hw3]; show w2.failed = false; rw [w2e]
  have m3 : w3.minLength = 0 := by rw [hw3]; show w2.minLength = 0; rw [w2e]; exact w1m
  have hpr := C71_prove (A := { A with budget := b }) (imp := importC { A with budget := b } d) (x := x) (w := w3) (v := { w3.v with mask := m }) (r := r) (s := s)
    (by rw [d3]; simp) hB.answers henv (by rw [m3]; exact hprove)
  obtain ⟨w4, hw4⟩ : ∃ w4 : World, w4 = { w3 with done := true, e := s.e, failed := w3.failed || (decide (r ≠ .true) && decide (r ≠ .broken)) } := ⟨_, rfl⟩
  rw [← hw4] at hpr
  have b2 : w2.v.bells = n := by rw [v2']
  have h2' : execS { A with budget := b } (importC { A with budget := b } d) (.bells n) { w1' with failed := false } = .ok () w2 := by
    rw [execS] at h2 ⊢; exact h2
  have steps : Steps { A with budget := b } (importC { A with budget := b } d) (ds.length + 1 + 1) ts { w1' with failed := false } t3 w4 := by
    have s1 : Steps { A with budget := b } (importC { A with budget := b } d) ds.length t1 w2 t2 w3 := by
      rw [hw3]; exact defs_steps (A := { A with budget := b }) (by
        rw [b2]
        clear * - hb2
        induction hb2 with
        | nil => exact .nil
        | cons h _ ih => exact .cons h ih)
    have s2 : Steps { A with budget := b } (importC { A with budget := b } d) 1 t2 w3 t3 w4 :=
      .cons (by rw [show w3.v.bells = n by rw [v3]]; exact hb3) (by simp) hpr .nil
    have s3 : ∀ {A : RArgs} {imp k k' ts ts' ts'' w w' w''}, Steps A imp k ts w ts' w' → Steps A imp k' ts' w' ts'' w'' →
        Steps A imp (k + k') ts w ts'' w'' := by
      intro A imp k k' ts ts' ts'' w w' w'' h h'
      induction h with
      | nil => rw [Nat.zero_add]; exact h'
      | cons h1 h2 h3 _ ih => rw [Nat.add_right_comm]; exact .cons h1 h2 h3 (ih h')
    refine .cons (s := .bells n) (w1 := w2) ?_ (by simp) h2' (s3 s1 s2)
    show Begins _ w1'.v.bells _ _ _
    rw [show w1'.v.bells = 0 by rw [w1v]; exact hB.bells]
    exact hb1
  have over : Over { A with budget := b } w4.v.bells t3 := by
    rw [show w4.v.bells = n by rw [hw4, show ({ w3 with done := true, e := s.e, failed := w3.failed || (decide (r ≠ .true) && decide (r ≠ .broken)) } : World).v = w3.v from rfl, v3]]
    exact ho
  have hmain := C72_exit (A := { A with budget := b }) (d := d) (n := k) (text := text) hp w1i steps over (by omega)
    (by rcases hB.proves with h | h
        · exact .inl h
        · exact .inr ⟨h, .inr (.inl (by rw [hw4]))⟩)
    (fun _ => by rw [hw4])
  have hinit : initialise { A with budget := b } I d w0 = .ok () w1' := by
    obtain ⟨w, h, h'⟩ := init { A with budget := b } d rfl
    rw [h, h', ← hw1]
  have f4 : w4.failed = (decide (r ≠ .true) && decide (r ≠ .broken)) := by rw [hw4]; show (w3.failed || _) = _; rw [f3, Bool.false_or]
  have o3 : w3.e.out = [] := by rw [hw3]; exact o2
  have o4 : w4.e.out = s.e.out := by rw [hw4]
  refine ⟨if w4.failed = true ∧ A.determineBells = false then 1 else 0, w4, ?_, ?_⟩
  · unfold gsirilC
    simp only [hw0, Ex.bind, hinit]
    exact hmain
  · rw [hB.answers, f4, o4]
    have r3 : w3.v.rounds = List.range n := by rw [v3]
    have x3 : w3.v.extents = v.extents ∧ w3.v.bellText = v.bellText ∧ w3.v.quiet = v.quiet ∧ w3.v.filter = false := by rw [v3]; exact ⟨rfl, rfl, rfl, hB.filter⟩
    have sh : ∀ t, shown { w3.v with mask := m } t = shown v t := by
      intro t; unfold shown; show (if w3.v.filter = true ∨ w3.v.quiet ≥ 2 then _ else _) = _; rw [x3.2.2.2, x3.2.2.1, hB.filter]
    simp only [sh] at hans
    simp only [o3, List.nil_append, r3, x3.1, x3.2.1, x3.2.2.1, x3.2.2.2, Bool.false_eq_true, false_or] at hans
    unfold Answer
    rcases hans with ⟨k, hk, h1, h2, rfl, h4⟩ | ⟨h1, h2, rfl, h4⟩ | ⟨h1, h2, rfl, h4⟩
    · exact .inl ⟨k, hk, h1, h2, by simp, h4⟩
    · exact .inr (.inl ⟨h1, h2, by simp, h4⟩)
    · exact .inr (.inr ⟨h1, h2, by simp, h4⟩)

/-- **C74**: so the exit code is 0 exactly if the touch is true: no row occurs more often than there are extents, and the last row is rounds. -/
theorem C74_exit_true {v : Env} {text : Str} {ts : List Tok} {n : Nat} {ds : List (Str × Expr)} {x : Expr} {star : Prop} {cs : List Change}
    (hB : Bare A I v) (hp : Program A text ts) (hc : Composition A ts n ds x) (hx : Expands n (definitionIn ds) star x cs) :
    ∃ N, ∀ b d k, N ≤ b → ds.length + 2 < k → ∃ c w, gsirilC { A with budget := b } I d k v (some text) = .ok c w ∧ c ≤ 1 ∧
      (c = 0 ↔ NoRowTooOften v.extents (rowsFrom (List.range n) (cs.map (·.swaps))) ∧
        lastOf (List.range n) (rowsFrom (List.range n) (cs.map (·.swaps))) = List.range n) := by
  obtain ⟨N, hN⟩ := C74_touch hB hp hc hx
  refine ⟨N, fun b d k hb hk => ?_⟩
  obtain ⟨c, w, h, ha⟩ := hN b d k hb hk
  refine ⟨c, w, h, ?_⟩
  rcases ha with ⟨k, hk, -, h2, rfl, -⟩ | ⟨h1, h2, rfl, -⟩ | ⟨h1, h2, rfl, -⟩
  · exact ⟨le_refl _, by simp, fun h => absurd (Proof.noRow_take h.1 (k + 1)) h2⟩
  · exact ⟨le_refl _, by simp, fun h => absurd h.2 h2⟩
  · exact ⟨by omega, fun _ => ⟨h1, h2⟩, fun _ => rfl⟩


/-! ### Examples -/

/-- gsiril with the literals of `C73` and no arguments. -/
def bareArgs : RArgs where
  lits := literals
  mask := maskLit
  files := fun _ => none
  budget := 60

def bareEnv : Env := { bells := 0, extents := 1, rounds := [] }

theorem exBare : Bare bareArgs {} bareEnv where
  bells := rfl
  rounds := rfl
  limit := rfl
  music := rfl
  text := write_plain
  only := rfl
  filter := rfl
  lengths := ⟨rfl, rfl⟩
  mask := rfl
  inits := ⟨rfl, rfl, rfl, rfl⟩
  batch := rfl
  answers := rfl
  proves := .inl rfl

/-- The tokens of a program. -/
def huntToks : List Tok :=
  [.num "3".toList, .name "bells".toList, .sym .newLine, .name "p".toList, .sym .assignment, .lit .pn "&3".toList, .sym .comma, .lit .pn "&1".toList, .sym .newLine,
   .name "prove".toList, .num "3".toList, .name "p".toList, .sym .newLine]

theorem huntProgram : Program bareArgs "3 bells\np = &3, &1\nprove 3 p".toList huntToks := by
  obtain ⟨s, hs⟩ := exists_ended "3 bells\np = &3, &1\nprove 3 p".toList
  exact ⟨s, hs, (C70_reads _ hs _).1 (by decide +kernel)⟩

theorem three : Numeral "3".toList 3 := by
  refine ⟨by decide, ?_, by decide +kernel, by decide +kernel⟩
  intro c hc
  have : c = '3' := by simpa using hc
  subst this
  unfold Spec.Digit
  decide

theorem huntPn : (literals 3).pn "&3".toList = .ok (.pn [⟨3, [0]⟩] []) ∧ (literals 3).pn "&1".toList = .ok (.pn [⟨3, [1]⟩] []) := by
  constructor <;> rfl

/-- A composition: three times plain hunting on three bells. -/
theorem huntComposition : Composition bareArgs huntToks 3 [("p".toList, .list (.pn [⟨3, [0]⟩] []) (.pn [⟨3, [1]⟩] []))] (.rep 3 (.sym "p".toList)) where
  bells := by omega
  names := by
    intro d hd
    rw [List.mem_singleton] at hd
    subst hd
    rintro (h | h | h | ⟨e, h⟩)
    · revert h; decide
    · revert h; decide
    · revert h; decide
    · have : "p".toList ∈ (standard false false).map Prod.fst := List.mem_map.2 ⟨_, h, rfl⟩
      revert this; decide +kernel
  reads := by
    refine ⟨huntToks.drop 2, huntToks.drop 8, huntToks.drop 12, ?_, .cons ?_ .nil, ?_, ?_⟩
    · exact ⟨[[.num "3".toList, .name "bells".toList]], .cons (nextCommand_inv rfl) .nil, .line (.bells three)⟩
    · refine ⟨[[.name "p".toList, .sym .assignment, .lit .pn "&3".toList, .sym .comma, .lit .pn "&1".toList]], .cons (nextCommand_inv rfl) .nil,
        .line (.assign .define ?_ ?_)⟩
      · rintro (⟨m, h⟩ | h | h | h)
        · generalize hp : "p".toList = p at h
          cases h <;> revert hp <;> decide
        · revert h; decide
        · revert h; decide
        · revert h; decide
      · refine spells_down (q := 1) (by omega) (.binary (l := [.lit .pn "&3".toList]) .comma ?_ ?_) (by omega)
        · exact spells_down (le_refl 9) (.pn huntPn.1) (by omega)
        · exact spells_down (le_refl 9) (.pn huntPn.2) (by omega)
    · refine ⟨[[.name "prove".toList, .num "3".toList, .name "p".toList]], .cons (nextCommand_inv rfl) .nil, .line (.prove ?_ ?_ (by simp))⟩
      · refine spells_down (le_refl 9) (.times three (.var ?_ ?_)) (by omega)
        · rintro ⟨e, h⟩
          generalize hp : "p".toList = p at h
          cases h <;> revert hp <;> decide
        · unfold Prefix; decide
      · intro y f _ h; cases h
    · exact .inl (by intro t ht; cases ht with | head => exact .inl (.inl rfl) | tail _ h => cases h)

theorem hunt3Expands : Expands 3 (definitionIn [("p".toList, .list (.pn [⟨3, [0]⟩] []) (.pn [⟨3, [1]⟩] []))]) False (.rep 3 (.sym "p".toList))
    (List.replicate 3 [⟨3, [0]⟩, ⟨3, [1]⟩]).flatten := by
  have h : ∀ k, k = 0 ∨ k = 1 → ∀ c ∈ [(⟨3, [k]⟩ : Change)], IsChange c.n c.swaps ∧ c.n ≤ 3 := by
    rintro k (rfl | rfl) c hc <;>
    · simp only [List.mem_cons, List.not_mem_nil, or_false] at hc
      subst hc
      refine ⟨⟨by decide, by simp, by simp⟩, le_refl _⟩
  exact .rep 3 (.sym _ (by decide) rfl (.list (.pn _ [] (h 0 (.inl rfl))) (.pn _ [] (h 1 (.inr rfl)))))

/-- gsiril proves it (`C74_touch`, `C74_exit_true`). -/
example : ∃ N, ∀ b d k, N ≤ b → 3 < k → ∃ w,
    gsirilC { bareArgs with budget := b } {} d k bareEnv (some "3 bells\np = &3, &1\nprove 3 p".toList) = .ok 0 w := by
  obtain ⟨N, h⟩ := C74_exit_true exBare huntProgram huntComposition hunt3Expands
  refine ⟨N, fun b d k hb hk => ?_⟩
  obtain ⟨c, w, h1, -, h3⟩ := h b d k hb hk
  have e3 : rowsFrom (List.range 3) ((List.replicate 3 [(⟨3, [0]⟩ : Change), ⟨3, [1]⟩]).flatten.map (·.swaps)) =
      [[1, 0, 2], [1, 2, 0], [2, 1, 0], [2, 0, 1], [0, 2, 1], [0, 1, 2]] := by decide
  rw [e3] at h3
  have : c = 0 := h3.2 ⟨.inr (by decide), rfl⟩
  exact ⟨w, by rw [h1, this]⟩

/-- gsiril with `-S x` ends with code 2 (`C74_arguments_exit`). -/
example : ∃ w, gsirilC bareArgs { stringDefs := ["a=b".toList, "x".toList] } 3 50 bareEnv none = .ok 2 w := by
  obtain ⟨w, h, -⟩ := context_bare (A := bareArgs) (I := {}) (v := bareEnv) exBare
  have h' : contextC { stringDefs := ["a=b".toList, "x".toList] } bareEnv = .ok () w := h
  obtain ⟨w', h2, -⟩ := C74_string "a".toList "b".toList (scripted bareArgs { stringDefs := ["a=b".toList, "x".toList] } { w with interactive := false }) (by decide)
  exact ⟨_, (C74_arguments_exit (c := 0) (w2 := w) (w3 := w) (w4 := w) h').1 (l1 := ["a=b".toList]) (l2 := []) (s := "x".toList) rfl (.cons h2 .nil) (by decide)⟩

end Ringing.Siril
