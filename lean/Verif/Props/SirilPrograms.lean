import Verif.Lemmas.SirilRun
import Verif.Props.SirilRun
import Verif.Props.SirilLiterals
import Verif.Props.SirilTokens
import Verif.Lemmas.SirilRunMono
/-
C72: running gsiril programs.
-/
namespace Ringing.Siril
open Grammar Running

/-- What becomes of an error: the program ends with code 2, the module cannot be imported, or the statement is left out. -/
def onError (A : RArgs) (imp : Str → World → Ex Unit) (ep : Policy) (n : Nat) (src : Src) (count : Nat) (w : World) : Ex Nat :=
  match ep with
  | .fatal => .exit 2 { w with reports := w.reports + 1 }
  | .propagate => .err { w with reports := w.reports + 1 }
  | .warn => runLoop A imp ep n src count { w with reports := w.reports + 1 }

variable {A : RArgs} {imp : Str → World → Ex Unit} {ep : Policy}

theorem loop_eof {n c : Nat} {src src' : Src} {w : World} (h : readStmt A w.v.bells src = (.ok .eof, src')) :
    runLoop A imp ep (n + 1) src c w = .ok c w := by
  rw [runLoop]; simp only [h]

theorem loop_ok {n c : Nat} {src src' : Src} {w w' : World} {s : Stmt} (h : readStmt A w.v.bells src = (.ok s, src')) (hs : s ≠ .eof)
    (he : execS A imp s w = .ok () w') : runLoop A imp ep (n + 1) src c w = runLoop A imp ep n src' (c + 1) w' := by
  rw [runLoop]
  cases s with
  | eof => exact absurd rfl hs
  | _ => simp only [h, he]

theorem loop_err {n c : Nat} {src src' : Src} {w w' : World} {s : Stmt} (h : readStmt A w.v.bells src = (.ok s, src')) (hs : s ≠ .eof)
    (he : execS A imp s w = .err w') : runLoop A imp ep (n + 1) src c w = onError A imp ep n src' c w' := by
  rw [runLoop]
  cases s with
  | eof => exact absurd rfl hs
  | _ => simp only [h, he]; cases ep <;> rfl

theorem loop_throw {n c : Nat} {src src' : Src} {w : World} {x : Err} (h : readStmt A w.v.bells src = (.throw x, src')) :
    runLoop A imp ep (n + 1) src c w = onError A imp ep n src' c w := by
  rw [runLoop]; simp only [h]; cases ep <;> rfl

/-! ### Statements one after the other -/

/-- **C72**: the statements of a program are executed in the order in which they are written, each one read when those before it have been
executed, and what follows them is run in the state they leave. -/
theorem C72_steps {k n c : Nat} {ts rest : List Tok} {w w' : World} (h : Steps A imp k ts w rest w') (hn : k ≤ n) :
    runLoop A imp ep n ⟨ts, false⟩ c w = runLoop A imp ep (n - k) ⟨rest, false⟩ (c + k) w' := by
  induction h generalizing n c with
  | nil => simp
  | @cons k ts w s ts1 w1 rest w' hb hs he _ ih =>
    obtain ⟨n, rfl⟩ : ∃ m, n = m + 1 := ⟨n - 1, by omega⟩
    rw [loop_ok (begins_read hb) hs he, ih (by omega), Nat.add_sub_add_right]
    congr 1
    omega

/-- **C72**: a program whose statements all succeed is executed to its end, whatever is done about errors. -/
theorem C72_run {k n c : Nat} {ts rest : List Tok} {w w' : World} (h : Steps A imp k ts w rest w') (ho : Over A w'.v.bells rest) (hn : k < n) :
    runLoop A imp ep n ⟨ts, false⟩ c w = .ok (c + k) w' := by
  rw [C72_steps h (by omega)]
  obtain ⟨m, hm⟩ : ∃ m, n - k = m + 1 := ⟨n - k - 1, by omega⟩
  rw [hm]
  obtain ⟨src, hr⟩ := over_read ho
  exact loop_eof hr

/-- A statement that fails: what the loop does. -/
theorem loop_fails {n c : Nat} {ts rest : List Tok} {w w' : World} (hL : ReadersEnd (A.lits w.v.bells)) (ht : AllTame A.T.msiril ts)
    (h : Fails A imp ts w rest w') : runLoop A imp ep (n + 1) ⟨ts, false⟩ c w = onError A imp ep n ⟨rest, false⟩ c w' := by
  cases h with
  | read h1 h2 =>
    rcases read_cases hL ht with ⟨h, -⟩ | ⟨s, rest, -, h, -⟩ | ⟨-, -, x, rest, h⟩
    · exact absurd h h1
    · exact absurd ⟨s, rest, h⟩ h2
    · rw [loop_throw h]
      have : (readStmt A w.v.bells ⟨ts, false⟩).2.toks = rest := by rw [h]
      rw [this]
  | exec h1 h2 h3 => exact loop_err (begins_read h1) h2 h3

theorem tame_steps {k : Nat} {ts rest : List Tok} {w w' : World} (h : Steps A imp k ts w rest w') (ht : AllTame A.T.msiril ts) :
    AllTame A.T.msiril rest := by
  induction h with
  | nil => exact ht
  | cons hb _ _ _ ih => exact ih (tame_begins ht hb)

/-- **C72**: at the first statement that fails a program read from a file or with `-e` ends with code 2; the statements before it have been
executed, and those behind it are not. -/
theorem C72_fatal {k n c : Nat} {ts ts1 rest : List Tok} {w w1 w' : World} (h : Steps A imp k ts w ts1 w1) (hf : Fails A imp ts1 w1 rest w')
    (hL : ReadersEnd (A.lits w1.v.bells)) (ht : AllTame A.T.msiril ts) (hn : k < n) :
    runLoop A imp .fatal n ⟨ts, false⟩ c w = .exit 2 { w' with reports := w'.reports + 1 } := by
  rw [C72_steps h (by omega)]
  obtain ⟨m, hm⟩ : ∃ m, n - k = m + 1 := ⟨n - k - 1, by omega⟩
  rw [hm, loop_fails hL (tame_steps h ht) hf]
  rfl

/-- **C72**: an imported module ends there too, and importing it fails. -/
theorem C72_propagate {k n c : Nat} {ts ts1 rest : List Tok} {w w1 w' : World} (h : Steps A imp k ts w ts1 w1) (hf : Fails A imp ts1 w1 rest w')
    (hL : ReadersEnd (A.lits w1.v.bells)) (ht : AllTame A.T.msiril ts) (hn : k < n) :
    runLoop A imp .propagate n ⟨ts, false⟩ c w = .err { w' with reports := w'.reports + 1 } := by
  rw [C72_steps h (by omega)]
  obtain ⟨m, hm⟩ : ∃ m, n - k = m + 1 := ⟨n - k - 1, by omega⟩
  rw [hm, loop_fails hL (tame_steps h ht) hf]
  rfl

/-- The tokens contain no `++`, `--`, `echo` and `save`, and numbers are small (see `C69_described`). -/
def Ordinary (ts : List Tok) : Prop := (∀ t ∈ ts, ¬ Careless t) ∧ SmallNumbers ts

theorem ordinary_tame {ms : Bool} {ts : List Tok} (h : Ordinary ts) : AllTame ms ts := C69_described h.1 h.2

theorem ordinary_suffix {ts rest : List Tok} (h : Ordinary ts) (hs : rest <:+ ts) : Ordinary rest :=
  ⟨fun t ht => h.1 t (hs.subset ht), fun s hs' => h.2 s (hs.subset hs')⟩

theorem begins_suffix {b : Int} {ts rest : List Tok} {s : Stmt} (h : Begins A b ts s rest) : rest <:+ ts := by
  obtain ⟨cmds, h1, -⟩ := h
  induction h1 with
  | nil => exact List.suffix_refl _
  | cons hn _ ih => exact ih.trans (nextCommand_rest (nextCommand_of hn)).1

theorem fails_suffix {ts rest : List Tok} {w w' : World} (hL : ReadersEnd (A.lits w.v.bells)) (h : Fails A imp ts w rest w') :
    rest <:+ ts ∧ (ts ≠ [] → rest.length < ts.length) := by
  cases h with
  | read h1 h2 =>
    obtain ⟨r, -, h3, h4⟩ := C69_total (A := readingOf A w.v.bells) ⟨hL.1, hL.2, hL.3⟩ ts
    obtain ⟨⟨-, h2⟩, h3⟩ := parseC_answers (A := readingOf A w.v.bells) hL ts
    rw [readStmt_good]
    exact ⟨h2, h3⟩
  | exec h1 h2 h3 => exact ⟨begins_suffix h1, begins_length h1⟩

theorem fails_nonempty {ts rest : List Tok} {w w' : World} (h : Fails A imp ts w rest w') : ts ≠ [] := by
  rintro rfl
  cases h with
  | read h1 h2 => exact h1 (.inl (by simp))
  | exec h1 h2 h3 =>
    have := begins_read h1
    rw [readStmt_good, C69_end (by simp)] at this
    cases this
    exact h2 rfl

theorem begins_nonempty {b : Int} {ts rest : List Tok} {s : Stmt} (h : Begins A b ts s rest) (hs : s ≠ .eof) : ts ≠ [] := by
  rintro rfl
  have := begins_read h
  rw [readStmt_good, C69_end (by simp)] at this
  cases this
  exact hs rfl

theorem loop_survives {k j n c : Nat} {ts rest : List Tok} {w w' : World} (hL : ∀ b, ReadersEnd (A.lits b)) (ho : Ordinary ts)
    (h : Survives A imp k j ts w rest w') (hn : k + j ≤ n) :
    runLoop A imp .warn n ⟨ts, false⟩ c w = runLoop A imp .warn (n - (k + j)) ⟨rest, false⟩ (c + k) w' := by
  induction h generalizing n c with
  | nil => simp
  | step hb hs he _ ih =>
    obtain ⟨m, rfl⟩ : ∃ m, n = m + 1 := ⟨n - 1, by omega⟩
    rw [loop_ok (begins_read hb) hs he, ih (ordinary_suffix ho (begins_suffix hb)) (by omega)]
    congr 1 <;> omega
  | fail hf _ ih =>
    obtain ⟨m, rfl⟩ : ∃ m, n = m + 1 := ⟨n - 1, by omega⟩
    rw [loop_fails (hL _) (ordinary_tame ho) hf]
    show runLoop A imp .warn m _ c _ = _
    rw [ih (ordinary_suffix ho (fails_suffix (hL _) hf).1) (by omega)]
    congr 1
    omega

/-- **C72**: in an interactive session every statement that fails is reported and left out, and the session goes on. -/
theorem C72_warn {k j n c : Nat} {ts rest : List Tok} {w w' : World} (hL : ∀ b, ReadersEnd (A.lits b)) (ho : Ordinary ts)
    (h : Survives A imp k j ts w rest w') (hr : Over A w'.v.bells rest) (hn : k + j < n) :
    runLoop A imp .warn n ⟨ts, false⟩ c w = .ok (c + k) w' := by
  rw [loop_survives hL ho h (by omega)]
  obtain ⟨m, hm⟩ : ∃ m, n - (k + j) = m + 1 := ⟨n - (k + j) - 1, by omega⟩
  rw [hm]
  obtain ⟨src, hr⟩ := over_read hr
  exact loop_eof hr

/-- **C72**: nothing else happens.  Running a program with at least as many passes as tokens, whose statements all end, ends in one of these
ways: at its end, with a statement that fails, or with a statement that throws a `break` or `abort`, calls `exit` or is undefined. -/
theorem C72_only {n c : Nat} {ts : List Tok} {w : World} (hL : ∀ b, ReadersEnd (A.lits b)) (ht : AllTame A.T.msiril ts) (hn : ts.length < n) :
    ∃ k rest w1, Steps A imp k ts w rest w1 ∧ k ≤ ts.length ∧
      (Over A w1.v.bells rest ∨ (∃ rest' w', Fails A imp rest w1 rest' w') ∨
        ∃ s rest', Begins A w1.v.bells rest s rest' ∧ s ≠ .eof ∧ (∀ w', execS A imp s w1 ≠ .ok () w') ∧ (∀ w', execS A imp s w1 ≠ .err w')) := by
  induction n generalizing c ts w with
  | zero => omega
  | succ n ih =>
    rcases read_cases (hL w.v.bells) ht with ⟨h, -⟩ | ⟨s, rest, hs, h, hr⟩ | ⟨h1, h2, -⟩
    · exact ⟨0, ts, w, .nil, by omega, .inl h⟩
    · have hlen := begins_length h (begins_nonempty h hs)
      cases hx : execS A imp s w
      case ok u w1 =>
        obtain ⟨k, rest', w2, h3, h4, h5⟩ := ih (c := c) (w := w1) (tame_begins ht h) (by omega)
        exact ⟨k + 1, rest', w2, .cons h hs hx h3, by omega, h5⟩
      case err w1 => exact ⟨0, ts, w, .nil, by omega, .inr (.inl ⟨rest, w1, .exec h hs hx⟩)⟩
      all_goals exact ⟨0, ts, w, .nil, by omega, .inr (.inr ⟨s, rest, h, hs, by simp [hx], by simp [hx]⟩)⟩
    · exact ⟨0, ts, w, .nil, by omega, .inr (.inl ⟨_, w, .read h1 h2⟩)⟩

/-- **C72**: a program ends normally with `k` statements executed exactly if it consists of `k` statements that all succeed. -/
theorem C72_normal {n c c' : Nat} {ts : List Tok} {w w' : World} (hL : ∀ b, ReadersEnd (A.lits b)) (ht : AllTame A.T.msiril ts)
    (hn : ts.length < n) (hp : ep ≠ .warn) :
    runLoop A imp ep n ⟨ts, false⟩ c w = .ok c' w' ↔ ∃ k rest, Steps A imp k ts w rest w' ∧ Over A w'.v.bells rest ∧ c' = c + k := by
  constructor
  · intro h
    obtain ⟨k, rest, w1, h1, h2, h3⟩ := C72_only (c := c) (w := w) (imp := imp) hL ht hn
    rw [C72_steps h1 (by omega)] at h
    obtain ⟨m, hm⟩ : ∃ m, n - k = m + 1 := ⟨n - k - 1, by omega⟩
    rw [hm] at h
    rcases h3 with h3 | ⟨rest', w2, h3⟩ | ⟨s, rest', h3, h4, h5, h6⟩
    · obtain ⟨src, hr⟩ := over_read h3
      rw [loop_eof hr] at h
      cases h
      exact ⟨k, rest, h1, h3, rfl⟩
    · rw [loop_fails (hL _) (tame_steps h1 ht) h3] at h
      cases ep with
      | fatal => cases h
      | propagate => cases h
      | warn => exact absurd rfl hp
    · rw [runLoop] at h
      simp only [begins_read h3] at h
      cases hx : execS A imp s w1 with
      | ok u w2 => exact absurd hx (h5 w2)
      | err w2 => exact absurd hx (h6 w2)
      | _ => simp only [hx] at h; cases s <;> first | exact absurd rfl h4 | cases h
  · rintro ⟨k, rest, h1, h2, rfl⟩
    obtain ⟨k', rest', w1, h3, h4, -⟩ := C72_only (c := c) (w := w) (imp := imp) hL ht hn
    refine C72_run h1 h2 ?_
    -- every statement takes a token
    have : ∀ {k ts rest w w'}, Steps A imp k ts w rest w' → k ≤ ts.length := by
      intro k ts rest w w' h
      induction h with
      | nil => omega
      | cons hb hs _ _ ih => have := begins_length hb (begins_nonempty hb hs); omega
    have := this h1
    omega


/-- **C72**: an interactive session goes on to its end, or to a statement that neither succeeds nor fails: one that calls `exit`, throws a
`break` or `abort`, is undefined or does not end. -/
theorem C72_session {ts : List Tok} {w : World} (hL : ∀ b, ReadersEnd (A.lits b)) (ho : Ordinary ts) :
    ∃ k j rest w', Survives A imp k j ts w rest w' ∧ k + j ≤ ts.length ∧
      (Over A w'.v.bells rest ∨
        ∃ s rest', Begins A w'.v.bells rest s rest' ∧ s ≠ .eof ∧ (∀ w2, execS A imp s w' ≠ .ok () w2) ∧ (∀ w2, execS A imp s w' ≠ .err w2)) := by
  obtain ⟨n, hn⟩ : ∃ n, ts.length < n := ⟨_, Nat.lt_succ_self _⟩
  induction n generalizing ts w with
  | zero => omega
  | succ n ih =>
    rcases read_cases (hL w.v.bells) (ordinary_tame ho) with ⟨h, -⟩ | ⟨s, rest, hs, h, -⟩ | ⟨h1, h2, -⟩
    · exact ⟨0, 0, ts, w, .nil, by omega, .inl h⟩
    · have hlen := begins_length h (begins_nonempty h hs)
      cases he : execS A imp s w
      case ok u w1 =>
        obtain ⟨k, j, r, w', h3, h4, h5⟩ := ih (ts := rest) (w := w1) (ordinary_suffix ho (begins_suffix h)) (by omega)
        exact ⟨k + 1, j, r, w', .step h hs he h3, by omega, h5⟩
      case err w1 =>
        obtain ⟨k, j, r, w', h3, h4, h5⟩ := ih (ts := rest) (w := { w1 with reports := w1.reports + 1 }) (ordinary_suffix ho (begins_suffix h)) (by omega)
        exact ⟨k, j + 1, r, w', .fail (.exec h hs he) h3, by omega, h5⟩
      all_goals exact ⟨0, 0, ts, w, .nil, by omega, .inr ⟨s, rest, h, hs, by simp [he], by simp [he]⟩⟩
    · have hf := Fails.read (imp := imp) h1 h2
      have hl := fails_suffix (hL _) hf
      have := hl.2 (fails_nonempty hf)
      obtain ⟨k, j, r, w', h3, h4, h5⟩ := ih (w := { w with reports := w.reports + 1 }) (ordinary_suffix ho hl.1) (by omega)
      exact ⟨k, j + 1, r, w', .fail hf h3, by omega, h5⟩

/-! ### Inputs with something that cannot be read -/

theorem readStmt_bad {b : Int} {ts rest : List Tok} {o : Out Stmt} (h : readStmt A b ⟨ts, false⟩ = (o, ⟨rest, false⟩)) :
    readStmt A b ⟨ts, true⟩ = if rest = [] then (.throw .bellInvalid, ⟨ts.getLast?.toList, true⟩) else (o, ⟨rest, true⟩) := by
  rw [readStmt_good] at h
  unfold readStmt
  simp only [Prod.mk.injEq, Src.mk.injEq, and_true] at h
  obtain ⟨h1, h2⟩ := h
  have h1 : (parseC { msiril := A.T.msiril, noImport := A.noImport, lits := A.lits b } ts).1 = o := h1
  have h2 : (parseC { msiril := A.T.msiril, noImport := A.noImport, lits := A.lits b } ts).2 = rest := h2
  simp only [true_and, h1, h2]

theorem steps_suffix {k : Nat} {ts rest : List Tok} {w w' : World} (h : Steps A imp k ts w rest w') : rest <:+ ts := by
  induction h with
  | nil => exact List.suffix_refl _
  | cons hb _ _ _ ih => exact ih.trans (begins_suffix hb)

/-- **C72**: the statements before something that cannot be read are executed, as long as a token is left before it. -/
theorem C72_bad_steps {k n c : Nat} {ts rest : List Tok} {w w' : World} (h : Steps A imp k ts w rest w') (hr : rest ≠ []) (hn : k ≤ n) :
    runLoop A imp ep n ⟨ts, true⟩ c w = runLoop A imp ep (n - k) ⟨rest, true⟩ (c + k) w' := by
  induction h generalizing n c with
  | nil => simp
  | @cons k ts w s ts1 w1 rest w' hb hs he hst ih =>
    obtain ⟨n, rfl⟩ : ∃ m, n = m + 1 := ⟨n - 1, by omega⟩
    have hne : ts1 ≠ [] := by
      rintro rfl
      exact hr (List.suffix_nil.1 (steps_suffix hst))
    have hrd := readStmt_bad (begins_read hb)
    rw [if_neg hne] at hrd
    rw [loop_ok hrd hs he, ih hr (by omega), Nat.add_sub_add_right]
    congr 1
    omega

/-- **C72**: and then, when the next statement would take what is left, the program ends with code 2. -/
theorem C72_bad_fatal {k n c : Nat} {ts rest : List Tok} {w w' : World} (h : Steps A imp k ts w rest w') (hr : rest ≠ [])
    (hl : (readStmt A w'.v.bells ⟨rest, false⟩).2.toks = []) (hn : k < n) :
    runLoop A imp .fatal n ⟨ts, true⟩ c w = .exit 2 { w' with reports := w'.reports + 1 } := by
  rw [C72_bad_steps h hr (by omega)]
  obtain ⟨m, hm⟩ : ∃ m, n - k = m + 1 := ⟨n - k - 1, by omega⟩
  have h2 := readStmt_bad (b := w'.v.bells) (ts := rest) (A := A) (o := (readStmt A w'.v.bells ⟨rest, false⟩).1) (rest := [])
    (by rw [← hl]; rw [readStmt_good])
  rw [if_pos rfl] at h2
  rw [hm, loop_throw h2]
  rfl

/-- Finding: an interactive session never gets past it.  The same error is reported again and again. -/
theorem C72_stuck_finding {n c : Nat} {t : Tok} {w : World} (hL : ∀ b, ReadersEnd (A.lits b)) :
    runLoop A imp .warn n ⟨[t], true⟩ c w = .fuel := by
  induction n generalizing w with
  | zero => rfl
  | succ n ih =>
    obtain ⟨⟨-, -⟩, h3⟩ := parseC_answers (A := readingOf A w.v.bells) (hL _) [t]
    have h3 := h3 (by simp)
    have h2 := readStmt_bad (b := w.v.bells) (ts := [t]) (A := A) (o := (readStmt A w.v.bells ⟨[t], false⟩).1) (rest := [])
      (by
        rw [readStmt_good]
        have : (parseC (readingOf A w.v.bells) [t]).2 = [] := List.eq_nil_of_length_eq_zero (by simpa using h3)
        rw [this])
    rw [if_pos rfl] at h2
    rw [loop_throw h2]
    exact ih

/-! ### The program as a whole -/

/-- The text of a program consists of these tokens (see `C70`). -/
def Program (A : RArgs) (text : Str) (ts : List Tok) : Prop := ∃ s, Lexis.Ended text s ∧ Lexis.Text A.T s ts

theorem program_open {text : Str} {ts : List Tok} (h : Program A text ts) : openSrc A text = .ok ⟨ts, false⟩ := by
  obtain ⟨s, h1, h2⟩ := h
  unfold openSrc
  rw [(C70_reads A.T h1 ts).2 h2]

theorem exec_prove {x : Expr} {w w' : World} (h : execS A imp (.prove x) w = .ok () w') :
    ∃ e f, w' = { w with done := true, e := e, failed := f } := by
  rw [execS] at h
  unfold execProve at h
  split at h
  · cases h
  · cases hv : World.envC { w with
        done := true
        e := { w.e with out := w.e.out ++ if A.determineBells then decimalInt w.v.bells ++ " bells\n".toList else [] } } with
    | ok v w1 =>
      dsimp only at h hv
      rw [hv] at h
      obtain ⟨rfl, -⟩ := envC_ok hv
      cases hp : World.after { w with
          done := true
          e := { w.e with out := w.e.out ++ if A.determineBells then decimalInt w.v.bells ++ " bells\n".toList else [] } }
        (proveC v w.minLength A.budget x
          { w.e with out := w.e.out ++ if A.determineBells then decimalInt w.v.bells ++ " bells\n".toList else [] }
          (noState { w.e with out := w.e.out ++ if A.determineBells then decimalInt w.v.bells ++ " bells\n".toList else [] })) with
      | ok r w2 =>
        obtain ⟨e, rfl⟩ := after_ok hp
        dsimp only [Ex.bind] at h hp
        rw [hp] at h
        cases h
        by_cases hf : r.fails = true
        · rw [if_pos hf]; exact ⟨_, _, rfl⟩
        · rw [if_neg hf]; exact ⟨_, _, rfl⟩
      | _ => dsimp only [Ex.bind] at h hp; rw [hp] at h; cases h
    | _ => dsimp only at h hv; rw [hv] at h; cases h

mutual

theorem exec_interactive (hi : ∀ s w w', imp s w = .ok () w' → w'.interactive = w.interactive) :
    ∀ (s : Stmt) (w w' : World), execS A imp s w = .ok () w' → w'.interactive = w.interactive
  | .eof, w, w', h => by rw [execS] at h; cases h
  | .null, w, w', h | .extents _, w, w', h | .rounds _, w, w', h | .rows _ _, w, w', h | .define _ _, w, w', h => by
    rw [execS] at h; cases h; rfl
  | .dflt x e, w, w', h => by
    rw [execS] at h; cases h
    unfold World.defaultSym
    split <;> rfl
  | .bells n, w, w', h => by
    rw [execS] at h
    split at h
    · cases h
    · exact (setBells_bells h).2
  | .rowMask s, w, w', h => by
    rw [execS] at h
    split at h
    · cases h
    · split at h
      · cases h; rfl
      · cases hm : A.mask w.v.bells s with
        | ok d => rw [hm] at h; exact (defineLine_keeps h).2
        | _ => rw [hm] at h; cases h
  | .import s, w, w', h => by rw [execS] at h; exact hi s w w' h
  | .prove x, w, w', h => by
    obtain ⟨e, f, rfl⟩ := exec_prove h
    rfl
  | .echo m x, w, w', h => by
    cases hc : inContext A w fun c => (if w.v.quiet < 2 ∨ m ≠ .echo then setSilent false else M.pure ()) >>= fun _ => c.strNl x with
    | ok a w1 =>
      obtain ⟨t, b⟩ := a
      rw [(C71_echo m x w).1 t b w1 hc] at h
      obtain ⟨e, rfl⟩ := inContext_ok hc
      cases m with
      | echo => rw [if_pos (by decide)] at h; cases h; rfl
      | warn => rw [if_pos (by decide)] at h; cases h; rfl
      | error =>
        rw [if_neg (by decide)] at h
        by_cases hw : w.interactive = true
        · rw [if_pos hw] at h; cases h; rfl
        · rw [if_neg hw] at h; cases h
    | _ => rw [execS] at h; unfold execEcho at h; rw [hc] at h; cases h
  | .music xs, w, w', h => by
    rw [execS] at h
    obtain ⟨⟨e, m, rfl⟩, -⟩ := addMusic_ok h
    rfl
  | .ifs alts, w, w', h => by rw [execS] at h; exact if_interactive hi alts w w' h
  | .foreach x a body, w, w', h => by
    rw [execS] at h
    cases hc : inContext A w fun c => c.arr a with
    | ok l w1 =>
      rw [hc] at h
      have h0 : w1.interactive = w.interactive := by obtain ⟨e, rfl⟩ := inContext_ok hc; rfl
      replace h : forLoop x (execAll A imp body) l w1 = .ok () w' := h
      rw [← h0]
      clear hc h0
      induction l generalizing w1 with
      | nil => cases h; rfl
      | cons v l ih =>
        rw [forLoop] at h
        cases hb : execAll A imp body (w1.defineSym x v) with
        | ok u w2 =>
          rw [hb] at h
          exact (ih w2 h).trans (all_interactive hi body (w1.defineSym x v) w2 hb)
        | _ => rw [hb] at h; cases h
    | _ => rw [hc] at h; cases h
  | .immediate x e, w, w', h => by
    rw [execS] at h
    cases hc : inContext A w fun c => c.eval e with
    | ok a w1 =>
      rw [hc] at h
      obtain ⟨e, rfl⟩ := inContext_ok hc
      cases h
      rfl
    | _ => rw [hc] at h; cases h

theorem all_interactive (hi : ∀ s w w', imp s w = .ok () w' → w'.interactive = w.interactive) :
    ∀ (ss : List Stmt) (w w' : World), execAll A imp ss w = .ok () w' → w'.interactive = w.interactive
  | [], w, w', h => by rw [execAll] at h; cases h; rfl
  | s :: ss, w, w', h => by
    rw [execAll] at h
    cases hs : execS A imp s w with
    | ok u w1 =>
      rw [hs] at h
      exact (all_interactive hi ss w1 w' h).trans (exec_interactive hi s w w1 hs)
    | _ => rw [hs] at h; cases h

theorem if_interactive (hi : ∀ s w w', imp s w = .ok () w' → w'.interactive = w.interactive) :
    ∀ (alts : List (Expr × List Stmt)) (w w' : World), execIf A imp alts w = .ok () w' → w'.interactive = w.interactive
  | [], w, w', h => by rw [execIf] at h; cases h; rfl
  | (c, ss) :: alts, w, w', h => by
    rw [execIf] at h
    cases hb : boolConst A c w with
    | ok b w1 =>
      rw [hb] at h
      have h0 : w1.interactive = w.interactive := by obtain ⟨e, rfl⟩ := inContext_ok hb; rfl
      rw [← h0]
      have h : (if b = true then execAll A imp ss w1 else execIf A imp alts w1) = _ := h
      cases b with
      | true => rw [if_pos rfl] at h; exact all_interactive hi ss _ _ h
      | false => rw [if_neg (by simp)] at h; exact if_interactive hi alts _ _ h
    | _ => rw [hb] at h; cases h

end

theorem steps_interactive {d k : Nat} {ts rest : List Tok} {w w' : World} (h : Steps A (importC A d) k ts w rest w') :
    w'.interactive = w.interactive := by
  induction h with
  | nil => rfl
  | cons _ _ he _ ih => exact ih.trans (exec_interactive (fun s w w' h => (C71_import (.inl h)).2.1) _ _ _ he)

/-- **C72**: importing a module executes it as a program that is not interactive, whether the session is or not: if its statements all succeed, what
they leave is kept but for the number of bells, the interactive session and the first definition; if one of them ends gsiril, so does the import. -/
theorem C72_module {d k : Nat} {name text : Str} {ts rest : List Tok} {w w' : World} (hf : A.files name = some text) (hp : Program A text ts)
    (hs : Steps A (importC A d) k ts { w with interactive := false } rest w') :
    (Over A w'.v.bells rest → importC A (d + 1) name w = restore w.v.bells w.interactive (w.e.syms first) w') ∧
    (∀ {s rest' c w2}, Begins A w'.v.bells rest s rest' → s ≠ .eof → execS A (importC A d) s w' = .exit c w2 →
      importC A (d + 1) name w = .exit c w2) := by
  have hk : ∀ {k ts rest w w'}, Steps A (importC A d) k ts w rest w' → k ≤ ts.length := by
    intro k ts rest w w' h
    induction h with
    | nil => omega
    | cons hb hs _ _ ih => have := begins_length hb (begins_nonempty hb hs); omega
  constructor
  · intro ho
    rw [importC]
    unfold importText
    simp only [hf, program_open hp, Ex.lift, Ex.bind, C72_run hs ho (Nat.lt_succ_of_le (hk hs))]
    rfl
  · intro s rest' c w2 hb hn he
    rw [importC]
    unfold importText
    have hkk := hk hs
    obtain ⟨m, hm⟩ : ∃ m, ts.length + 1 - k = m + 1 := ⟨ts.length - k, by omega⟩
    have h2 : runLoop A (importC A d) .propagate (ts.length + 1) ⟨ts, false⟩ 0 { w with interactive := false } = .exit c w2 := by
      rw [C72_steps hs (by omega), hm, runLoop]
      simp only [begins_read hb]
      cases s with
      | eof => exact absurd rfl hn
      | _ => simp only [he]
    simp only [hf, program_open hp, Ex.lift, Ex.bind, h2]
    rfl

/-- **C72**: an `error` in a module ends gsiril with code 1, even in an interactive session (there `error` elsewhere only notes a failure,
`C71_echo`). -/
theorem C72_module_error {d k : Nat} {name text t : Str} {b : Bool} {x : Expr} {ts rest rest' : List Tok} {w w' w1 : World}
    (hf : A.files name = some text) (hp : Program A text ts)
    (hs : Steps A (importC A d) k ts { w with interactive := false } rest w') (hb : Begins A w'.v.bells rest (.echo .error x) rest')
    (hx : inContext A w' (fun c => (if w'.v.quiet < 2 ∨ EchoMode.error ≠ .echo then setSilent false else M.pure ()) >>= fun _ => c.strNl x) = .ok (t, b) w1) :
    importC A (d + 1) name w = .exit 1 (printed .error (t ++ if b then [] else ['\n']) w1) := by
  refine (C72_module hf hp hs).2 hb (by intro h; cases h) ?_
  have hw : w'.interactive = false := steps_interactive hs
  rw [(C71_echo .error x w').1 t b w1 hx, if_neg (by simp), if_neg (by simp [hw])]

theorem first_tokens (T : TArgs) : tokensC T ("prove ".toList ++ first) = ([.name "prove".toList, .name first, .sym .newLine], .ok ()) := by
  obtain ⟨a, b⟩ := T
  cases a <;> cases b <;> decide +kernel

theorem first_reads (A : RArgs) (b : Int) :
    readStmt A b ⟨[.name "prove".toList, .name first, .sym .newLine], false⟩ = (.ok (.prove (.sym first)), ⟨[.sym .newLine], false⟩) := by
  refine begins_read ⟨[[.name "prove".toList, .name first]], .cons (nextCommand_inv ?_) .nil, .line (.prove (ts := [.name first]) ?_ ?_ (by simp))⟩
  · cases A.T.msiril <;> rfl
  · refine spells_down (le_refl _) (.var ?_ ?_) (by omega)
    · rintro ⟨e, he⟩; cases he
    · unfold Prefix; decide
  · intro y f _ h; cases h

theorem exit_of {d n : Nat} {text : Option Str} {any : Bool} {w w1 w2 : World} (h2 : readProgram A d n text { w with failed := false } = .ok any w1)
    (h3 : (if any = true ∧ A.proveSymbol ≠ [] then proveFirst A d w1 else .ok () w1) = Ex.ok () w2) (hw : w2.interactive = false)
    (h1 : A.proveOne = true → w2.done = true) : mainC A d n text w = .ok (if w2.failed = true ∧ A.determineBells = false then 1 else 0) w2 := by
  unfold mainC proveStream
  simp only [h2, Ex.bind]
  rw [h3]
  dsimp only
  rw [if_neg (by simpa using h1)]
  have e : ({ w2 with e := { w2.e with out := w2.e.out ++ if w2.interactive = true then ['\n'] else [] } } : World) = w2 := by
    obtain ⟨⟩ := w2; simp only at hw; subst hw; simp
  rw [e]
  cases hf : w2.failed with
  | true => cases hb : A.determineBells <;> simp [exitCode, hb]
  | false => simp [exitCode]

/-- **C72**: the exit code of a program that is run to its end: 1 if a proof failed, otherwise 0.  With `-P` or in MicroSiril mode, where the first
definition is proved if nothing else is, this is so if the program has proved something, has defined nothing or has no statements. -/
theorem C72_exit {d n k : Nat} {text : Str} {ts rest : List Tok} {w w1 : World} (hp : Program A text ts) (hi : w.interactive = false)
    (hs : Steps A (importC A d) k ts { w with failed := false } rest w1) (ho : Over A w1.v.bells rest) (hn : k < n)
    (hf : A.proveSymbol = [] ∨ (A.proveSymbol = first ∧ (k = 0 ∨ w1.done = true ∨ w1.e.syms first = none))) (h1 : A.proveOne = true → w1.done = true) :
    mainC A d n (some text) w = .ok (if w1.failed = true ∧ A.determineBells = false then 1 else 0) w1 := by
  have hw : w1.interactive = false := (steps_interactive hs).trans hi
  have h2 : readProgram A d n (some text) { w with failed := false } = .ok (decide (k ≠ 0)) w1 := by
    unfold readProgram runC
    simp only [program_open hp, Ex.lift, Ex.bind, C72_run hs ho hn, Nat.zero_add]
  have h3 : (if decide (k ≠ 0) = true ∧ A.proveSymbol ≠ [] then proveFirst A d w1 else .ok () w1) = Ex.ok () w1 := by
    split
    · rename_i hc
      rcases hf with hf | ⟨hf, hd⟩
      · exact absurd hf hc.2
      unfold proveFirst
      rw [if_neg]
      rintro (h | h)
      · exact h hf
      · rcases hd with hd | hd | hd
        · simp_all
        · exact h.1 hd
        · have h2 : (w1.e.syms first).isSome = true := h.2
          rw [hd] at h2; cases h2
    · rfl
  exact exit_of h2 h3 hw h1

/-- **C72**: and, with `-P` or in MicroSiril mode, if it has proved nothing, its first definition is proved at its end. -/
theorem C72_exit_first {d n k : Nat} {text : Str} {ts rest : List Tok} {w w1 w2 : World} (hp : Program A text ts) (hi : w.interactive = false)
    (hs : Steps A (importC A d) k ts { w with failed := false } rest w1) (ho : Over A w1.v.bells rest) (hn : k < n)
    (hf : A.proveSymbol = first) (hk : k ≠ 0) (hd : w1.done = false) (hx : w1.e.syms first ≠ none)
    (he : execS A (importC A d) (.prove (.sym first)) w1 = .ok () w2) :
    mainC A d n (some text) w = .ok (if w2.failed = true ∧ A.determineBells = false then 1 else 0) w2 := by
  have hw : w1.interactive = false := (steps_interactive hs).trans hi
  have h2 : readProgram A d n (some text) { w with failed := false } = .ok (decide (k ≠ 0)) w1 := by
    unfold readProgram runC
    simp only [program_open hp, Ex.lift, Ex.bind, C72_run hs ho hn, Nat.zero_add]
  have h3 : (if decide (k ≠ 0) = true ∧ A.proveSymbol ≠ [] then proveFirst A d w1 else .ok () w1) = Ex.ok () w2 := by
    rw [if_pos ⟨by simpa using hk, by rw [hf]; decide⟩]
    unfold proveFirst
    rw [if_pos (.inr ⟨by simp [hd], by rw [Option.isSome_iff_ne_none]; exact hx⟩)]
    have h4 : openSrc A ("prove ".toList ++ A.proveSymbol) = .ok ⟨[.name "prove".toList, .name first, .sym .newLine], false⟩ := by
      unfold openSrc
      rw [hf, first_tokens]
    have h5 : firstBody A d w1 = .ok () w2 := by
      unfold firstBody
      simp only [h4, Ex.lift, Ex.bind, first_reads]
      have h6 : (readStmt A w1.v.bells ⟨[.sym .newLine], false⟩).1 = .ok .eof := by
        obtain ⟨src, h⟩ := over_read (A := A) (b := w1.v.bells) (ts := [.sym .newLine]) (.inl (by simp [Separator]))
        rw [h]
      simp only [h6, he]
    rw [h5]
    rfl
  obtain ⟨e, f, rfl⟩ := exec_prove he
  exact exit_of h2 h3 hw fun _ => rfl

/-- **C72**: a program with a statement that fails ends with code 2. -/
theorem C72_exit_error {d n k : Nat} {text : Str} {ts ts1 rest : List Tok} {w w1 w' : World} (hp : Program A text ts) (hi : w.interactive = false)
    (hs : Steps A (importC A d) k ts { w with failed := false } ts1 w1) (hf : Fails A (importC A d) ts1 w1 rest w')
    (hL : ReadersEnd (A.lits w1.v.bells)) (ht : AllTame A.T.msiril ts) (hn : k < n) :
    mainC A d n (some text) w = .ok 2 { w' with reports := w'.reports + 1 } := by
  have h2 : readProgram A d n (some text) { w with failed := false } = .exit 2 { w' with reports := w'.reports + 1 } := by
    unfold readProgram runC
    simp only [program_open hp, Ex.lift, Ex.bind]
    have := C72_fatal (c := 0) hs hf hL ht hn
    rw [if_neg (by simp [hi]), this]
  unfold mainC proveStream
  rw [h2]
  rfl

/-- **C72**: a run that ends is the same with a greater budget for expressions, depth of imports and number of passes, so these do not matter. -/
theorem C72_budget {d n d' n' m : Nat} {text : Option Str} {w : World} (h : mainC A d n text w ≠ .fuel) (hm : A.budget ≤ m) (hd : d ≤ d')
    (hn : n ≤ n') : mainC { A with budget := m } d' n' text w = mainC A d n text w :=
  (exle_main hm hd hn text w).resolve_left h

/-! ### Examples -/

/-- The tokens of a program. -/
def exToks : List Tok :=
  [.num "3".toList, .name "bells".toList, .sym .newLine, .name "a".toList, .sym .assignment, .lit .pn "&3".toList, .sym .semicolon,
   .name "prove".toList, .name "a".toList, .sym .comma, .name "a".toList, .sym .newLine]

/-- `Program` is met. -/
theorem exProgram : Program exArgs "3 bells\na = &3; prove a, a".toList exToks := by
  obtain ⟨s, hs⟩ := exists_ended "3 bells\na = &3; prove a, a".toList
  exact ⟨s, hs, (C70_reads _ hs _).1 (by decide +kernel)⟩

theorem exOrdinary : Ordinary exToks := by
  refine ⟨by unfold exToks Careless; decide, ?_⟩
  intro s hs
  have : s = "3".toList := by simpa [exToks] using hs
  subst this
  refine ⟨3, by decide, ?_, by decide +kernel, by decide +kernel⟩
  intro c hc
  have : c = '3' := by simpa using hc
  subst this
  unfold Spec.Digit
  decide

/-- The statements of this program are executed and prove a touch (`C72_steps`, `C72_run`, `C72_exit`). -/
theorem exSteps : ∃ k rest w', Steps exArgs (importC exArgs 3) k exToks exWorld rest w' ∧ Over exArgs w'.v.bells rest ∧ k = 3 ∧ w'.done = true ∧
    w'.failed = false ∧ w'.e.out = "2 rows ending in 123\nTouch is true\n".toList := by
  have h : (match runLoop exArgs (importC exArgs 3) .fatal 50 ⟨exToks, false⟩ 0 exWorld with
      | .ok k w => decide (k = 3) && w.done && !w.failed && decide (w.e.out = "2 rows ending in 123\nTouch is true\n".toList)
      | _ => false) = true := by decide +kernel
  cases hr : runLoop exArgs (importC exArgs 3) .fatal 50 ⟨exToks, false⟩ 0 exWorld with
  | ok k w' =>
    rw [hr] at h
    obtain ⟨k', rest, h1, h2, h3⟩ := (C72_normal (ep := .fatal) (fun b => C73_end b) (ordinary_tame exOrdinary) (by decide) (by decide)).1 hr
    simp only [Bool.and_eq_true, decide_eq_true_eq, Bool.not_eq_true'] at h
    exact ⟨k', rest, w', h1, h2, by omega, h.1.1.2, h.1.2, h.2⟩
  | _ => rw [hr] at h; cases h

example : ∃ w', mainC exArgs 3 50 (some "3 bells\na = &3; prove a, a".toList) exWorld = .ok 0 w' ∧
    w'.e.out = "2 rows ending in 123\nTouch is true\n".toList := by
  obtain ⟨k, rest, w', h1, h2, rfl, h4, h5, h6⟩ := exSteps
  refine ⟨w', ?_, h6⟩
  rw [C72_exit exProgram rfl h1 h2 (by omega) (.inr ⟨rfl, .inr (.inl h4)⟩) (fun h => absurd h (by decide)), h5]
  rfl

/-- Programs that fail: at the end, in the middle, and with something that cannot be read; and a first definition that is proved (`C72_exit_error`,
`C72_exit_first`). -/
example : exEnds (exMain "3 bells; prove &3\necho \"@\"") 1 "1 rows ending in 213\nIs this OK?\n123\n" = true ∧
    exEnds (exMain "3 bells; echo \"@\"; foo; echo \"@\"") 2 "123\n" = true ∧
    exEnds (exMain "3 bells; echo \"@\"\n x = &{3\n echo \"@\"") 2 "123\n" = true ∧
    exEnds (exMain "3 bells; p = &3; c = p, p; q = c") 1 "1 rows ending in 213\nIs this OK?\n" = true := by decide +kernel

/-- Interactive sessions: failing statements are left out (`C72_warn`), and what cannot be read is reported for ever (`C72_stuck_finding`). -/
example : exEnds (mainC exArgs 3 50 (some "3 bells; 99 bells; foo; echo \"@\"".toList) { exWorld with interactive := true }) 0 "123\n\n" = true ∧
    (match mainC exArgs 3 50 (some "3 bells\n x = &{3\n echo \"@\"".toList) { exWorld with interactive := true } with
      | .fuel => true
      | _ => false) = true := by decide +kernel

/-- A module with an error ends an interactive session (`C72_module_error`). -/
example : exEnds (mainC { exArgs with files := fun _ => some "error \"no\"".toList } 3 50 (some "3 bells; import \"m\"; echo \"@\"".toList)
    { exWorld with interactive := true }) 1 "" = true ∧
    exEnds (mainC exArgs 3 50 (some "3 bells; error \"no\"; echo \"@\"".toList) { exWorld with interactive := true }) 1 "123\n\n" = true := by decide +kernel

/-- Findings: a `break` outside a proof ends an interactive session with code 2, `end` inside a block is undefined, and literals in a block are read
for the number of bells before the block. -/
theorem C72_block_finding :
    exEnds (mainC exArgs 3 50 (some "3 bells; x := (break, 1)\n echo \"@\"".toList) { exWorld with interactive := true }) 2 "" = true ∧
    (match exMain "4 bells\n foreach [4] as a\n end\n endfor" with
      | .ub => true
      | _ => false) = true ∧
    exEnds (exMain "4 bells\n if 1 == 1\n 3 bells\n prove &x, &x\n endif") 1 "2 rows ending in 1234\nIs this OK?\n" = true := by decide +kernel

end Ringing.Siril
