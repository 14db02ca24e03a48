import Verif.Props.SirilTouch
import Verif.Lemmas.SirilText
/-
C59: what gsiril prints about a touch with its default definitions.
-/
namespace Ringing.Siril
open Prover Spec Spec.Siril

/-- A string in double quotes. -/
def quoted (t : String) : Expr := .str t.toList { interpolate := true }

/-- The default definitions (apps/gsiril/init/gsiril.init, lines 21-44; `music` is registered in functions.cpp).  Other symbols
may be defined in any way. -/
structure Defaults (t : Table) : Prop where
  summary : t "__summary__".toList = some (quoted "# rows ending in @")
  score : t "__music__".toList = some (.list (.assign "__score__".toList (.call "music".toList []))
    (.ifMatch (.cmp (.sym "__score__".toList) (.int 0) .gt) (quoted "Music score: ${__score__}") none))
  music : t "music".toList = some (.fn .music)
  isTrue : t "true".toList = some (.list (.sym "__summary__".toList) (.list (quoted "Touch is true") (.sym "__music__".toList)))
  notround : t "notround".toList = some (.list (.sym "__summary__".toList) (quoted "Is this OK?"))
  isFalse : t "false".toList = some (.list (.sym "__summary__".toList) (quoted "Touch is false in $ rows"))
  conflict : t "conflict".toList = some (.list (.sym "__summary__".toList) (quoted "Touch not completed due to false row$$"))
  rounds : t "rounds".toList = some .nop
  start : t "start".toList = some .nop
  finish : t "finish".toList = some .nop
  abort : t "abort".toList = some .nop
  everyrow : t "everyrow".toList = some .nop

/-- The settings of gsiril without arguments but for `-q` and `--filter`, with a row on the number of bells as rounds. -/
structure Plain (v : Env) : Prop where
  limit : v.nodeLimit = 0
  music : v.music = Music.new v.music.b
  max : v.maxLength = 0
  row : IsRow v.rounds
  bells : (v.rounds.length : Int) = v.bells
  mask : ShowsRow v
  text : ∀ b, '\\' ∉ v.bellText b
  only : v.everyrowOnly = false

variable {v : Env} {t : Table} {r0 : Row}

theorem said_same (s : St) (x : Str) (k : Nat) : Same False s (s.said x k) := ⟨k, _, fun h => h.elim, rfl⟩

theorem said_said (s : St) (x y : Str) (k j : Nat) : (s.said x k).said y j = s.said (x ++ y) j := by
  unfold St.said
  cases s.silent <;> cases s.live <;> simp

/-- The first line of a report. -/
theorem runs_summary (hd : Defaults t) (hp : Plain v) {s : St} (hs : Ready v t r0 s) :
    ∃ k, Runs (fun n => (calls v n).exec (.sym "__summary__".toList) 1) s
      (.ok () (s.said (decimal s.p.size ++ " rows ending in ".toList ++ s.r.flatMap v.bellText ++ ['\n']) k)) := by
  obtain ⟨k, h⟩ := runs_text hp.limit hp.mask s.ticked "# rows ending in @".toList (by decide) (by decide)
    (a := ⟨decimal s.p.size ++ " rows ending in ".toList ++ s.r.flatMap v.bellText, false, false⟩)
    (by
      show substP (s.r.flatMap v.bellText) (decimal s.p.size) (decimal s.p.duplicates) _ 0 _ = _
      simp [substP])
    (by
      simp only [List.mem_append, List.mem_flatMap, not_or, not_exists, not_and]
      exact ⟨⟨decimal_plain _, by decide⟩, fun b _ => hp.text b⟩) rfl
  exact ⟨k, runs_exec hp.limit (runs_symbol (hs.same (same_ticked False s)) (ne_counter (by decide)) hd.summary h)⟩

theorem list_fwd {n : Nat} (x y : Expr) (s : St) (h : v.nodeLimit = 0) : (calls v (n + 1)).exec (.list x y) 1 s =
    M.bind ((calls v n).exec x 1) (fun _ => (calls v n).exec y 1) s.ticked := by
  rw [exec_succ h]
  show M.bind (M.cond (decide ((1 : Int) > 0)) _) _ _ = M.bind _ _ _
  unfold M.bind M.cond
  simp only [show decide ((1 : Int) > 0) = true from rfl, if_true, show decide ((1 : Int) ≤ 0) = false from rfl]
  cases (calls v n).exec x 1 s.ticked with
  | ok a s' =>
    show M.bind ((calls v n).exec y 1) _ s' = (calls v n).exec y 1 s'
    unfold M.bind
    cases (calls v n).exec y 1 s' with
    | ok u s'' => cases u; rfl
    | _ => rfl
  | _ => rfl

theorem runs_list {x y : Expr} {s s1 : St} {res : Res Unit} (h : v.nodeLimit = 0)
    (h1 : Runs (fun n => (calls v n).exec x 1) s.ticked (.ok () s1)) (h2 : Runs (fun n => (calls v n).exec y 1) s1 res) :
    Runs (fun n => (calls v n).exec (.list x y) 1) s res :=
  runs_succ (fun n => list_fwd (n := n) x y s h) (runs_bind (g := fun n _ => (calls v n).exec y 1) h1 h2)

/-- Two lines, the second a message without row and number of false rows. -/
theorem runs_report (hd : Defaults t) (hp : Plain v) {s : St} (hs : Ready v t r0 s) (msg : String) (pre : Str) (ex : Bool)
    (h1 : '\\' ∉ msg.toList) (h2 : '{' ∉ msg.toList) (hpre : '\\' ∉ pre)
    (ha : ∀ a b, substP a b (decimal s.p.duplicates) msg.toList 0 ⟨[], false, false⟩ = ⟨pre, ex, false⟩) :
    ∃ k, Runs (fun n => (calls v n).exec (.list (.sym "__summary__".toList) (quoted msg)) 1) s
      (if ex then .abort (s.said (decimal s.p.size ++ " rows ending in ".toList ++ s.r.flatMap v.bellText ++ ['\n'] ++ pre ++ ['\n']) k)
       else .ok () (s.said (decimal s.p.size ++ " rows ending in ".toList ++ s.r.flatMap v.bellText ++ ['\n'] ++ pre ++ ['\n']) k)) := by
  obtain ⟨k, h⟩ := runs_summary hd hp (hs.same (same_ticked False s))
  set s1 := s.ticked.said (decimal s.ticked.p.size ++ " rows ending in ".toList ++ s.ticked.r.flatMap v.bellText ++ ['\n']) k with hs1
  obtain ⟨j, h'⟩ := runs_text hp.limit hp.mask s1 msg.toList h1 h2 (a := ⟨pre, ex, false⟩) (ha _ _) hpre rfl
  refine ⟨j, ?_⟩
  have e : s1.said (pre ++ ['\n']) j =
      s.said (decimal s.p.size ++ " rows ending in ".toList ++ s.r.flatMap v.bellText ++ ['\n'] ++ pre ++ ['\n']) j := by
    rw [hs1, said_said, List.append_assoc _ pre]; rfl
  have h2 := runs_list hp.limit h h'
  simp only [e] at h2
  exact h2

theorem runs_false (hd : Defaults t) (hp : Plain v) {s : St} (hs : Ready v t r0 s) :
    ∃ k, Runs (fun n => execSymbol (calls v n) "conflict".toList) s
      (.abort (s.said (report v.bellText s.p.size s.r "Touch not completed due to false row") k)) := by
  obtain ⟨k, h⟩ := runs_report hd hp hs "Touch not completed due to false row$$" "Touch not completed due to false row".toList true
    (by decide) (by decide) (by decide) (by intro a b; simp [substP])
  exact ⟨k, runs_symbol hs (ne_counter (by decide)) hd.conflict h⟩

/-- The condition on the music score. -/
theorem runs_score {s : St} (hl : v.nodeLimit = 0) (h1 : s.dsyms "__score__".toList = some (.call "music".toList []))
    (h2 : s.dsyms "music".toList = none) (h3 : s.e.syms "music".toList = some (.fn .music)) (h4 : s.mus = Music.new s.mus.b) :
    ∃ k, Runs (fun n => (calls v n).bool (.cmp (.sym "__score__".toList) (.int 0) .gt)) s
      (.ok false { s with e := { s.e with nodes := k } }) := by
  have lk1 : ∀ k, lookup "__score__".toList { s with e := { s.e with nodes := k } } = .ok (.call "music".toList []) { s with e := { s.e with nodes := k } } := by
    intro k; unfold lookup; simp only [h1]
  have lk2 : ∀ k, lookup "music".toList { s with e := { s.e with nodes := k } } = .ok (.fn .music) { s with e := { s.e with nodes := k } } := by
    intro k; unfold lookup; simp only [h2, h3]
  have tk : ∀ k, tick v { s with e := { s.e with nodes := k } } = .ok () { s with e := { s.e with nodes := k + 1 + 1 } } := by
    intro k; rw [tick_ok hl]; rfl
  have ty : ∀ n k, (calls v (n + 3)).type (.sym "__score__".toList) { s with e := { s.e with nodes := k } } =
      .ok .integer { s with e := { s.e with nodes := k } } := by
    intro n k
    show M.bind (lookup _) _ _ = _
    unfold M.bind
    rw [lk1]
    show M.bind (lookup _) _ _ = _
    unfold M.bind
    rw [lk2]
    rfl
  have sc : s.mus.getScoreC none = .ok 0 := by rw [h4]; rfl
  have i0 : ∀ n k, (calls v (n + 1)).int (.int 0) { s with e := { s.e with nodes := k } } =
      .ok 0 { s with e := { s.e with nodes := k + 1 + 1 } } := by
    intro n k
    show M.bind (tick v) _ _ = _
    unfold M.bind
    rw [tk]
    rfl
  have it : ∀ n k, (calls v (n + 3)).int (.sym "__score__".toList) { s with e := { s.e with nodes := k } } =
      .ok 0 { s with e := { s.e with nodes := k + 1 + 1 + 1 + 1 + 1 + 1 + 1 + 1 } } := by
    intro n k
    show M.bind (tick v) _ _ = _
    unfold M.bind
    rw [tk]
    show M.bind (lookup _) _ _ = _
    unfold M.bind
    rw [lk1]
    show M.bind (tick v) _ _ = _
    unfold M.bind
    rw [tk]
    show M.bind (M.bind (lookup _) _) _ _ = _
    unfold M.bind
    rw [lk2]
    have : (calls v (n + 1)).call (.fn .music) [] { s with e := { s.e with nodes := k + 1 + 1 + 1 + 1 } } =
        .ok (.int 0) { s with e := { s.e with nodes := k + 1 + 1 + 1 + 1 + 1 + 1 } } := by
      show M.bind (tick v) _ _ = _
      unfold M.bind
      rw [tk]
      show M.bind (M.lift (s.mus.getScoreC none)) _ _ = _
      unfold M.bind
      rw [sc]
      rfl
    simp only [this]
    exact i0 _ _
  refine ⟨s.e.nodes + 1 + 1 + 1 + 1 + 1 + 1 + 1 + 1 + 1 + 1 + 1 + 1, 4, fun n hn => ?_⟩
  obtain ⟨m, rfl⟩ : ∃ m, n = m + 3 + 1 := ⟨n - 4, by omega⟩
  have e0 : s = { s with e := { s.e with nodes := s.e.nodes } } := rfl
  show M.bind (tick v) _ s = _
  unfold M.bind
  rw [e0, tk]
  show M.bind ((calls v (m + 3)).type _) _ _ = _
  unfold M.bind
  rw [ty]
  show M.bind ((calls v (m + 3)).type (.int 0)) _ _ = _
  unfold M.bind
  have : (calls v (m + 3)).type (.int 0) { s with e := { s.e with nodes := s.e.nodes + 1 + 1 } } = .ok .integer { s with e := { s.e with nodes := s.e.nodes + 1 + 1 } } := rfl
  rw [this]
  simp only [if_true, reduceCtorEq, false_and, or_self, if_false, and_self, false_or]
  show M.bind ((calls v (m + 3)).int _) _ _ = _
  unfold M.bind
  rw [it]
  show M.bind ((calls v (m + 3)).int _) _ _ = _
  unfold M.bind
  have e5 := i0 (m + 2) (s.e.nodes + 1 + 1 + 1 + 1 + 1 + 1 + 1 + 1 + 1 + 1)
  rw [e5]
  rfl

/-- Executing `__music__` prints nothing if there is no music. -/
theorem runs_music (hd : Defaults t) (hp : Plain v) {s : St} (hs : Ready v t r0 s) :
    ∃ s', Runs (fun n => (calls v n).exec (.sym "__music__".toList) 1) s (.ok () s') ∧ s'.e.out = s.e.out ∧ s'.e.syms = t := by
  have hs1 := hs.same (same_ticked False s)
  generalize hu : s.ticked = u at hs1
  have hout : u.e.out = s.e.out := by rw [← hu]; rfl
  set d := u.dsyms.define "__score__".toList (.call "music".toList []) with hd'
  have d1 : d "__score__".toList = some (.call "music".toList []) := by rw [hd']; exact if_pos rfl
  have d2 : d "music".toList = none := by
    rw [hd']; simp only [Table.define]; rw [if_neg (by decide)]
    exact hs1.dyn _ (ne_counter (by decide))
  have hm := hs1.mus
  have hsy := hs1.syms
  obtain ⟨s3, hs3⟩ : ∃ s3 : St, s3 = { u.ticked.ticked with dsyms := d } := ⟨_, rfl⟩
  obtain ⟨w, hw⟩ : ∃ w : St, w = s3.ticked.clone := ⟨_, rfl⟩
  have w1 : w.dsyms = d := by rw [hw, hs3]; rfl
  have w2 : w.e.syms = t := by rw [hw, hs3]; exact hsy
  have w3 : w.mus = Music.new w.mus.b := by rw [hw, hs3]; exact hm
  have w4 : w.e.out = s.e.out := by rw [hw, hs3]; exact hout
  obtain ⟨i, N, hsc⟩ := runs_score (v := v) hp.limit (s := w) (by rw [w1, d1]) (by rw [w1, d2]) (by rw [w2, hd.music]) w3
  have hcond : ∀ n, N ≤ n → condition (calls v n) (.cmp (.sym "__score__".toList) (.int 0) .gt) s3.ticked =
      .ok false { s3.ticked with e := { w.e with nodes := i } } := by
    intro n hn
    have := hsc n hn
    unfold condition inClone M.catchAll
    rw [← hw]
    simp only at this ⊢
    rw [this]
  refine ⟨{ s3.ticked with e := { w.e with nodes := i } }, ?_, w4, w2⟩
  refine runs_exec hp.limit ?_
  rw [hu]
  refine runs_symbol hs1 (ne_counter (by decide)) hd.score ?_
  refine runs_list hp.limit (s1 := s3) (runs_exec hp.limit (runs_of fun n => ?_)) (runs_exec hp.limit ⟨N, fun n hn => ?_⟩)
  · rw [hs3]; rfl
  · show M.bind (condition (calls v n) _) _ s3.ticked = _
    unfold M.bind
    rw [hcond n hn]
    rfl

theorem said_out (s : St) (x : Str) (k : Nat) :
    (s.said x k).e.out = if (!s.silent && s.live) = true then s.e.out ++ x else s.e.out := rfl

theorem said_again {s s' : St} (x y : Str) (k j i : Nat) (h1 : s'.e.out = (s.said x k).e.out) (h2 : s'.silent = s.silent)
    (h3 : s'.live = s.live) : (s'.said y j).e.out = (s.said (x ++ y) i).e.out := by
  rw [said_out, said_out, h1, h2, h3, said_out]
  cases (!s.silent && s.live) <;> simp

/-- The report on a true touch. -/
theorem runs_true (hd : Defaults t) (hp : Plain v) {s : St} (hs : Ready v t r0 s) :
    ∃ s', Runs (fun n => execSymbol (calls v n) "true".toList) s (.ok () s') ∧
      s'.e.out = (s.said (report v.bellText s.p.size s.r "Touch is true") 0).e.out ∧ s'.e.syms = t := by
  obtain ⟨k, h⟩ := runs_summary hd hp (hs.same (same_ticked False s))
  obtain ⟨x, hx⟩ : ∃ x, x = decimal s.p.size ++ " rows ending in ".toList ++ s.r.flatMap v.bellText ++ ['\n'] := ⟨_, rfl⟩
  change Runs _ _ (.ok () (s.ticked.said (decimal s.p.size ++ " rows ending in ".toList ++ s.r.flatMap v.bellText ++ ['\n']) k)) at h
  rw [← hx] at h
  have r1 := (hs.same (same_ticked False s)).same (said_same _ x k)
  obtain ⟨s1, hs1⟩ : ∃ s1, s1 = s.ticked.said x k := ⟨_, rfl⟩
  rw [← hs1] at h r1
  have o1 : s1.e.out = (s.said x 0).e.out := by rw [hs1]; rfl
  have q1 : s1.silent = s.silent ∧ s1.live = s.live := by rw [hs1]; exact ⟨rfl, rfl⟩
  have hsub : ∀ a b c, substP a b c "Touch is true".toList 0 ⟨[], false, false⟩ = ⟨"Touch is true".toList, false, false⟩ := by
    intro a b c; simp [substP]
  have hplain : '\\' ∉ "Touch is true".toList ∧ '{' ∉ "Touch is true".toList := by decide
  obtain ⟨j, h'⟩ := runs_text hp.limit hp.mask s1.ticked "Touch is true".toList hplain.1 hplain.2 (hsub _ _ _) hplain.1 rfl
  rw [if_neg (by exact Bool.false_ne_true)] at h'
  have r2 := (r1.same (same_ticked False _)).same (said_same _ ("Touch is true".toList ++ ['\n']) j)
  have o2 : (s1.ticked.said ("Touch is true".toList ++ ['\n']) j).e.out = (s.said (x ++ ("Touch is true".toList ++ ['\n'])) 0).e.out :=
    said_again (s' := s1.ticked) x _ 0 j 0 o1 q1.1 q1.2
  obtain ⟨s2, hs2⟩ : ∃ s2, s2 = s1.ticked.said ("Touch is true".toList ++ ['\n']) j := ⟨_, rfl⟩
  rw [← hs2] at h' r2 o2
  obtain ⟨s4, hmus, e4, y4⟩ := runs_music hd hp r2
  refine ⟨s4, runs_symbol hs (ne_counter (by decide)) hd.isTrue (runs_list hp.limit h (runs_list hp.limit h' hmus)), ?_, y4⟩
  rw [e4, o2, hx]
  unfold report
  rw [List.append_assoc _ "Touch is true".toList]

theorem runs_notround (hd : Defaults t) (hp : Plain v) {s : St} (hs : Ready v t r0 s) :
    ∃ k, Runs (fun n => execSymbol (calls v n) "notround".toList) s
      (.ok () (s.said (report v.bellText s.p.size s.r "Is this OK?") k)) := by
  obtain ⟨k, h⟩ := runs_report hd hp hs "Is this OK?" "Is this OK?".toList false
    (by decide) (by decide) (by decide) (by intro a b; simp [substP])
  exact ⟨k, runs_symbol hs (ne_counter (by decide)) hd.notround h⟩

theorem events_default (hd : Defaults t) (hp : Plain v) : Events v t True True where
  limit := hp.limit
  everyrow := ⟨_, hd.everyrow, harmless_nop hp.limit⟩
  rounds := ⟨_, hd.rounds, harmless_nop hp.limit⟩
  conflict := fun h => absurd trivial h
  abort := fun _ => ⟨_, hd.conflict, fun r0 s hs => by
    obtain ⟨k, h⟩ := runs_report hd hp hs "Touch not completed due to false row$$" "Touch not completed due to false row".toList true
      (by decide) (by decide) (by decide) (by intro a b; simp [substP])
    exact ⟨_, h, said_same _ _ _⟩⟩

/-- What is shown with `-q` given some number of times; with `--filter` nothing. -/
def shown (v : Env) (t : Str) : Str := if v.filter = true ∨ v.quiet ≥ 2 then [] else t

theorem start_plain (hp : Plain v) (e : ECtx) (he : e.syms = t) (s0 : St) : ∃ st, startC v e s0 = .ok () st ∧ st.r = v.rounds ∧
    Ready v t v.rounds st ∧ st.rung = [] ∧ st.e = e ∧ st.live = true ∧ st.silent = decide (v.filter = true ∨ v.quiet ≥ 2) := by
  have hv := (isRow_iff_valid _).1 hp.row
  have hb := hp.bells
  have hm : Row.mulC (Row.roundsC v.bells.toNat) v.rounds = .ok v.rounds := by
    rw [← hb, Int.toNat_natCast, Row.roundsC_eq (by have := hp.row.1; omega), Row.mulC_eq (Row.valid_rounds (by have := hp.row.1; omega)) hv, Row.rounds_mul (le_refl _)]
  obtain ⟨st, hst⟩ : ∃ st, startC v e s0 = .ok () st ∧ st.r = v.rounds ∧ st.e = e ∧ st.dsyms = (fun _ => none) ∧ st.mus = v.music ∧
      st.maxLength = v.maxLength ∧ st.live = true ∧ st.silent = decide (v.filter = true ∨ v.quiet ≥ 2) := by
    unfold startC
    rw [if_neg (by omega), hm]
    exact ⟨_, rfl, rfl, rfl, rfl, rfl, rfl, rfl, by rw [hp.only]; cases v.filter <;> simp⟩
  obtain ⟨h1, h2, h3, h4, h5, h6, h7, h8⟩ := hst
  have hi := inv_start h1
  refine ⟨st, h1, h2, ⟨by rw [h3, he], fun n _ => by rw [h4], by rw [h5]; exact hp.music, by rw [h6]; exact hp.max, hi.2.2.2.1, ?_⟩, hi.2.1, h3, h7, h8⟩
  rw [← h2]; exact hi.1

theorem said_shown (s : St) (hl : s.live = true) (hs : s.silent = decide (v.filter = true ∨ v.quiet ≥ 2)) (x : Str) (k : Nat) :
    (s.said x k).e.out = s.e.out ++ shown v x := by
  rw [said_out, hl, hs]
  unfold shown
  by_cases h : v.filter = true ∨ v.quiet ≥ 2
  · rw [if_pos h, if_neg (by rw [decide_eq_true h]; simp)]; simp
  · rw [if_neg h, if_pos (by rw [decide_eq_false h]; simp)]

/-- **C59**: with the default definitions, what `prove x` answers and prints (with `--filter` nothing), where `x` stands for the changes `cs` with
rows `rows`.  If some row occurs more often than there are extents, the proof stops at the first such row and says so;
otherwise it says whether the touch comes round. -/
theorem C59_report (hp : Plain v) {star : Prop} {b : Nat} {x : Expr} {cs : List Change} (hd : Defaults t)
    (hx : Expands b t star x cs) (hb : b ≤ v.rounds.length) (e : ECtx) (he : e.syms = t) (s0 : St)
    (rows : List Row) (hrows : rows = rowsFrom v.rounds (cs.map (·.swaps))) :
    ∃ N, ∀ n, N ≤ n → ∃ w s', proveC v 0 n x e s0 = .ok w s' ∧ s'.e.syms = e.syms ∧
      ((∃ (k : Nat) (h : k < rows.length), NoRowTooOften v.extents (rows.take k) ∧ ¬ NoRowTooOften v.extents (rows.take (k + 1)) ∧
          w = .aborted ∧ s'.e.out = e.out ++ shown v (report v.bellText (k + 1) rows[k] "Touch not completed due to false row")) ∨
       (NoRowTooOften v.extents rows ∧ lastOf v.rounds rows ≠ v.rounds ∧ w = .notround ∧
          s'.e.out = e.out ++ shown v (report v.bellText rows.length (lastOf v.rounds rows) "Is this OK?")) ∨
       (NoRowTooOften v.extents rows ∧ lastOf v.rounds rows = v.rounds ∧ w = .true ∧
          s'.e.out = e.out ++ if v.filter = true ∨ v.quiet ≠ 0 then [] else report v.bellText rows.length v.rounds "Touch is true")) := by
  obtain ⟨st, h0, hr0, hst, hrg, hse, hlive, hsil⟩ := start_plain hp e he s0
  have hnop : ∀ {nm : Str} {s : St}, Ready v t v.rounds s → nm ≠ "loop_counter".toList → t nm = some .nop →
      Runs (fun n => execSymbol (calls v n) nm) s (.ok () s.ticked) := by
    intro nm s hs hn ht
    exact runs_symbol hs hn ht (runs_exec hp.limit (runs_of fun _ => rfl))
  have hr1 := hnop hst (ne_counter (by decide)) hd.start
  have r1 := hst.same (same_ticked False st)
  have hno : True → NoRowTooOften v.extents st.ticked.rung := by
    intro _; right
    have : st.ticked.rung = [] := hrg
    rw [this]; intro r hr; cases hr
  obtain ⟨res, hr2, ho⟩ := runs_expands (events_default hd hp) hx 1 (Or.inl rfl) st.ticked r1
    (by have : st.ticked.r = v.rounds := hr0
        rw [this]; exact hb) hno
  have hdir : dirs 1 cs = cs := by simp [dirs]
  rw [hdir] at ho
  have eR : st.ticked.rung = [] := hrg
  have er : st.ticked.r = v.rounds := hr0
  rcases ho with ⟨s2, rfl, ha, hno2⟩ | ⟨-, s2, rfl, hi⟩
  · have hno2 := hno2 trivial
    have h2out := ha.out trivial
    have h2rung := ha.rung
    rw [eR, er, List.nil_append, ← hrows] at hno2 h2rung
    have hr3 := hnop ha.ready (ne_counter (by decide)) hd.finish
    obtain ⟨s3, hs3⟩ : ∃ s3, s3 = s2.ticked := ⟨_, rfl⟩
    rw [← hs3] at hr3
    have r3 : Ready v t v.rounds s3 := by rw [hs3]; exact ha.ready.same (same_ticked False _)
    have g1 : s3.rung = rows := by rw [hs3]; exact h2rung
    have g2 : s3.e.out = e.out := by rw [hs3]; exact h2out.trans (by show st.e.out = _; rw [hse])
    have g3 : s3.live = true := by rw [hs3]; exact ha.prints.2.trans hlive
    have g4 : s3.silent = decide (v.filter = true ∨ v.quiet ≥ 2) := by rw [hs3]; exact ha.prints.1.trans hsil
    have g5 : s3.r = lastOf v.rounds rows := by rw [r3.inv.cur, g1]
    have g6 : s3.p.size = rows.length := by rw [r3.inv.size, r3.proved, g1]
    have hbody : Runs (fun n => proofBody (calls v n) x) st (.ok () s3) := runs_bind hr1 (runs_bind hr2 hr3)
    have g7 : s3.p.truth = true := by rw [r3.inv.truth, r3.proved, g1]; exact hno2
    have hstate : s3.state v = if s3.r = v.rounds then .rounds else .notround := by
      unfold St.state
      rw [g7, r3.proving]; rfl
    obtain ⟨N, hbody⟩ := hbody
    have key : ∀ n, N ≤ n → proveC v 0 n x e s0 = (match s3.state v with
        | .rounds =>
          if (0 : Nat) ≠ 0 ∧ s3.p.size < 0 then
            M.bind (execFinal (calls v n) "tooshort".toList) (fun _ => M.pure .tooshort) s3
          else
            M.bind (execFinal (calls v n) "true".toList) (fun _ => M.pure .true) (if v.quiet ≠ 0 then { s3 with silent := true } else s3)
        | .notround => M.bind (execFinal (calls v n) "notround".toList) (fun _ => M.pure .notround) s3
        | .isfalse => M.bind (execFinal (calls v n) "false".toList) (fun _ => M.pure .false) s3) := by
      intro n hn
      have hb' : proofBody (calls v n) x st = .ok () s3 := hbody n hn
      show M.bind _ _ s0 = _
      unfold M.bind
      rw [h0]
      simp only [hb']
      rfl
    have fin : ∀ {nm : Str} {w : Verdict} {s s' : St} {n : Nat}, execSymbol (calls v n) nm 1 s = .ok () s' →
        M.bind (execFinal (calls v n) nm) (fun _ => M.pure w) s = .ok w s' := by
      intro nm w s s' n h
      unfold M.bind execFinal M.catchAll
      rw [h]
      rfl
    by_cases hround : s3.r = v.rounds
    · rw [if_pos hround] at hstate
      obtain ⟨sq, hsq⟩ : ∃ sq, sq = (if v.quiet ≠ 0 then { s3 with silent := true } else s3) := ⟨_, rfl⟩
      have rq : Ready v t v.rounds sq := by
        rw [hsq]; split
        · exact r3.silent _
        · exact r3
      obtain ⟨s', ⟨N2, h2⟩, ho, hy⟩ := runs_true hd hp rq
      refine ⟨max N N2, fun n hn => ⟨.true, s', ?_, hy.trans he.symm, Or.inr (Or.inr ⟨hno2, by rw [← g5, hround], rfl, ?_⟩)⟩⟩
      · rw [key n (by omega), hstate]
        simp only [ne_eq, not_true_eq_false, false_and, if_false]
        exact fin (by have := h2 n (by omega); simpa only [hsq] using this)
      · rw [ho]
        by_cases hquiet : v.quiet ≠ 0
        · rw [if_pos hquiet] at hsq
          rw [hsq, if_pos (.inr hquiet), said_out]
          simp [g2]
        · rw [if_neg hquiet] at hsq
          rw [hsq, said_shown s3 g3 g4, g2, g6, hround]
          unfold shown
          by_cases hf : v.filter = true
          · rw [if_pos (.inl hf), if_pos (.inl hf)]
          · rw [if_neg (by rintro (h | h); exacts [hf h, by omega]), if_neg (by rintro (h | h); exacts [hf h, hquiet h])]
    · rw [if_neg hround] at hstate
      obtain ⟨k, N2, h2⟩ := runs_notround hd hp r3
      refine ⟨max N N2, fun n hn => ⟨.notround, s3.said (report v.bellText s3.p.size s3.r "Is this OK?") k, ?_, r3.syms.trans he.symm, Or.inr (Or.inl ⟨hno2, by rw [← g5]; exact hround, rfl, ?_⟩)⟩⟩
      · rw [key n (by omega), hstate]
        exact fin (h2 n (by omega))
      · rw [said_shown s3 g3 g4, g2, g6, g5]
  · obtain ⟨k, s1, sx, f1, f2, f3, f4, f5, f6, f7, f8, f9, f10⟩ := hi.first
    rw [eR, er, List.nil_append, ← hrows] at f2 f3 f5
    rw [er, ← hrows] at f1
    have hbody : Runs (fun n => proofBody (calls v n) x) st (.abort s2) := runs_bind hr1 (runs_bind_abort hr2)
    obtain ⟨j, g9⟩ := runs_false hd hp f4
    have hsx : sx = s1.said (report v.bellText s1.p.size s1.r "Touch not completed due to false row") j := by
      obtain ⟨N1, f9⟩ := f9
      obtain ⟨N2, g9⟩ := g9
      have a1 := f9 (max N1 N2) (by omega)
      have a2 := g9 (max N1 N2) (by omega)
      rw [a1] at a2
      injection a2
    obtain ⟨N, hbody⟩ := hbody
    obtain ⟨N2, hab⟩ := hnop hi.ready (nm := "abort".toList) (ne_counter (by decide)) hd.abort
    have ecur : s1.r = rows[k] := by
      have := f4.inv.cur
      rw [f5, List.take_succ_eq_append_getElem f1] at this
      rw [this]; unfold lastOf
      rw [List.getLast?_append]; rfl
    have esize : s1.p.size = k + 1 := by
      rw [f4.inv.size, f4.proved, f5, List.length_take]; omega
    refine ⟨max N N2, fun n hn => ⟨.aborted, s2.ticked, ?_, hi.ready.syms.trans he.symm, Or.inl ⟨k, f1, f2, f3, rfl, ?_⟩⟩⟩
    · have hb' : proofBody (calls v n) x st = .abort s2 := hbody n (by omega)
      have h2' : execSymbol (calls v n) "abort".toList 1 s2 = .ok () s2.ticked := hab n (by omega)
      show M.bind _ _ s0 = _
      unfold M.bind
      rw [h0]
      simp only [hb']
      show M.bind (execFinal (calls v n) "abort".toList) _ s2 = _
      unfold M.bind execFinal M.catchAll
      rw [h2']
      rfl
    · show s2.e.out = _
      rw [f10, hsx, said_shown s1 (f8.trans hlive) (f7.trans hsil), f6 trivial, ecur, esize]
      show st.e.out ++ _ = _
      rw [hse]

/-! A concrete case: plain hunting on three bells with the default definitions. -/

/-- The default definitions with `a` and `b` defined. -/
def initTable : Table := fun n =>
  if n = "a".toList then some (.pn [⟨3, [0]⟩] [])
  else if n = "b".toList then some (.pn [⟨3, [1]⟩] [])
  else if n = "__summary__".toList then some (quoted "# rows ending in @")
  else if n = "__music__".toList then some (.list (.assign "__score__".toList (.call "music".toList []))
    (.ifMatch (.cmp (.sym "__score__".toList) (.int 0) .gt) (quoted "Music score: ${__score__}") none))
  else if n = "music".toList then some (.fn .music)
  else if n = "true".toList then some (.list (.sym "__summary__".toList) (.list (quoted "Touch is true") (.sym "__music__".toList)))
  else if n = "notround".toList then some (.list (.sym "__summary__".toList) (quoted "Is this OK?"))
  else if n = "false".toList then some (.list (.sym "__summary__".toList) (quoted "Touch is false in $ rows"))
  else if n = "conflict".toList then some (.list (.sym "__summary__".toList) (quoted "Touch not completed due to false row$$"))
  else if n ∈ ["rounds".toList, "start".toList, "finish".toList, "abort".toList, "everyrow".toList] then some .nop
  else none

theorem initDefaults : Defaults initTable := by
  constructor <;> rfl

def initEnv : Env := { bells := 3, extents := 1, rounds := [0, 1, 2], mask := ⟨[⟨⟨['*'], 3⟩, 0, 0, 1, 1, []⟩], .node [] [0], 3⟩ }

theorem write_plain (b : Nat) : '\\' ∉ Bell.write b := by
  unfold Bell.write
  split
  · have : ∀ b < 33, '\\' ∉ [Bell.toChar b] := by decide
    exact this b (by assumption)
  · intro h
    simp only [List.mem_cons, List.mem_append, List.not_mem_nil, or_false] at h
    rcases h with h | h | h
    · exact absurd h (by decide)
    · have := Nat.isDigit_of_mem_toDigits (b := 10) (by omega) (by omega) h
      exact absurd this (by decide)
    · exact absurd h (by decide)

theorem initPlain : Plain initEnv where
  limit := rfl
  music := rfl
  max := rfl
  row := huntSetting.row
  bells := rfl
  mask := by
    unfold ShowsRow
    rfl
  text := write_plain
  only := rfl

theorem initExpands (k : Nat) : Expands 3 initTable False (.rep k (.list (.sym "a".toList) (.sym "b".toList)))
    (List.replicate k [⟨3, [0]⟩, ⟨3, [1]⟩]).flatten := by
  have h : ∀ k, k = 0 ∨ k = 1 → ∀ c ∈ [(⟨3, [k]⟩ : Change)], IsChange c.n c.swaps ∧ c.n ≤ 3 := by
    rintro k (rfl | rfl) c hc <;>
    · simp only [List.mem_cons, List.not_mem_nil, or_false] at hc
      subst hc
      refine ⟨⟨by decide, by simp, by simp⟩, le_refl _⟩
  exact Expands.rep k (Expands.list (Expands.sym _ (by decide) rfl (Expands.pn _ [] (h 0 (Or.inl rfl))))
    (Expands.sym _ (by decide) rfl (Expands.pn _ [] (h 1 (Or.inr rfl)))))

/-- `3 (a, b)` is true and `4 (a, b)` is stopped at the seventh row. -/
example (e : ECtx) (he : e.syms = initTable) (ho : e.out = []) (s0 : St) : ∃ N, ∀ n, N ≤ n → ∃ s1 s2,
    proveC initEnv 0 n (.rep 3 (.list (.sym "a".toList) (.sym "b".toList))) e s0 = .ok .true s1 ∧
    s1.e.out = "6 rows ending in 123\nTouch is true\n".toList ∧
    proveC initEnv 0 n (.rep 4 (.list (.sym "a".toList) (.sym "b".toList))) e s0 = .ok .aborted s2 ∧
    s2.e.out = "7 rows ending in 213\nTouch not completed due to false row\n".toList := by
  obtain ⟨N, h⟩ := C59_report initPlain initDefaults (initExpands 3) (le_refl _) e he s0 _ rfl
  obtain ⟨N', h'⟩ := C59_report initPlain initDefaults (initExpands 4) (le_refl _) e he s0 _ rfl
  refine ⟨max N N', fun n hn => ?_⟩
  obtain ⟨w, s1, h1, -, h2⟩ := h n (by omega)
  obtain ⟨w', s2, h1', -, h2'⟩ := h' n (by omega)
  refine ⟨s1, s2, ?_⟩
  have e3 : rowsFrom initEnv.rounds ((List.replicate 3 [(⟨3, [0]⟩ : Change), ⟨3, [1]⟩]).flatten.map (·.swaps)) =
      [[1, 0, 2], [1, 2, 0], [2, 1, 0], [2, 0, 1], [0, 2, 1], [0, 1, 2]] := by decide
  have e4 : rowsFrom initEnv.rounds ((List.replicate 4 [(⟨3, [0]⟩ : Change), ⟨3, [1]⟩]).flatten.map (·.swaps)) =
      [[1, 0, 2], [1, 2, 0], [2, 1, 0], [2, 0, 1], [0, 2, 1], [0, 1, 2], [1, 0, 2], [1, 2, 0]] := by decide
  rw [e3] at h2
  rw [e4] at h2'
  have hno : ∀ k, k ≤ 6 → NoRowTooOften initEnv.extents (([[1, 0, 2], [1, 2, 0], [2, 1, 0], [2, 0, 1], [0, 2, 1], [0, 1, 2], [1, 0, 2], [1, 2, 0]] : List Row).take k) := by
    intro k hk
    apply Or.inr
    revert k
    decide
  have hno7 : ¬ NoRowTooOften initEnv.extents (([[1, 0, 2], [1, 2, 0], [2, 1, 0], [2, 0, 1], [0, 2, 1], [0, 1, 2], [1, 0, 2], [1, 2, 0]] : List Row).take 7) := by
    rintro (h | h)
    · exact absurd h (by decide)
    · revert h; decide
  have t6 := hno 6 (le_refl _)
  constructor
  · rcases h2 with ⟨k, hk, -, hb, -⟩ | ⟨-, hb, -⟩ | ⟨-, -, hw, hout⟩
    · refine absurd ?_ hb
      exact Proof.noRow_take t6 (k + 1)
    · exact absurd rfl hb
    · rw [hw] at h1; exact h1
  refine ⟨?_, ?_⟩
  · rcases h2 with ⟨k, hk, -, hb, -⟩ | ⟨-, hb, -⟩ | ⟨-, -, hw, hout⟩
    · exact absurd (Proof.noRow_take t6 (k + 1)) hb
    · exact absurd rfl hb
    · rw [hout, ho]; decide
  rcases h2' with ⟨k, hk, ha, hb, hw, hout⟩ | ⟨ha, -⟩ | ⟨ha, -⟩
  · have hk6 : k = 6 := by
      rcases Nat.lt_trichotomy k 6 with h | h | h
      · exact absurd (hno (k + 1) (by omega)) hb
      · exact h
      · have := Proof.noRow_take ha 7
        rw [List.take_take, Nat.min_eq_left (by omega)] at this
        exact absurd this hno7
    subst hk6
    rw [hw] at h1'
    refine ⟨h1', ?_⟩
    rw [hout, ho]
    show [] ++ shown initEnv (report initEnv.bellText 7 [1, 0, 2] "Touch not completed due to false row") = _
    decide
  · exact absurd (Proof.noRow_take ha 7) hno7
  · exact absurd (Proof.noRow_take ha 7) hno7

end Ringing.Siril
