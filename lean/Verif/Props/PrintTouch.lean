import Verif.Spec.PrintTouch
import Verif.Props.Method
import Verif.Lemmas.Falseness2
/-! C94: the line printed for a touch. -/
namespace Ringing
namespace PrintTouch
open Row

theorem findIdx_spec (c : Change) : ∀ (calls : List Change) (names : List (List Char)), (∀ d ∈ calls, d.n ≠ 0) →
    names.length = calls.length →
    (if calls.findIdx (fun d => Change.eq d c) < calls.length then vget names (calls.findIdx fun d => Change.eq d c) else .ok plain)
      = (.ok ((((calls.zip names).find? fun p => c = p.1).map Prod.snd).getD plain) : Out (List Char)) := by
  intro calls
  induction calls with
  | nil => intro names _ _; simp
  | cons d ds ih =>
    intro names hd hl
    cases names with
    | nil => simp at hl
    | cons n ns =>
      have he : Change.eq d c = decide (c = d) := by
        have : d.n ≠ 0 := hd d (by simp)
        unfold Change.eq
        obtain ⟨a, b⟩ := c
        obtain ⟨a', b'⟩ := d
        simp only [Change.mk.injEq] at this ⊢
        rw [Bool.eq_iff_iff]
        simp only [Bool.and_eq_true, Bool.or_eq_true, decide_eq_true_eq]
        constructor
        · rintro ⟨rfl, h | rfl⟩
          · exact absurd h this
          · exact ⟨rfl, rfl⟩
        · rintro ⟨rfl, rfl⟩; exact ⟨rfl, Or.inr rfl⟩
      rw [List.findIdx_cons, he, List.zip_cons_cons, List.find?_cons]
      by_cases h : c = d
      · simp [h, vget]
      · have := ih ns (fun x hx => hd x (by simp [hx])) (by simpa using hl)
        simp only [h, decide_false, cond_false, List.length_cons, Nat.add_lt_add_iff_right]
        rw [← this]
        simp [vget]

theorem nameC_spec (A : Args) (hd : ∀ d ∈ A.calls, d.n ≠ 0) (hn : A.names.length = A.calls.length) (cs : List Change) :
    nameC A (cs.getLast?.getD ⟨0, []⟩) = .ok (nameOf A cs) := by
  unfold nameC nameOf
  dsimp only
  rw [findIdx_spec _ _ _ hd hn]
  congr 3
  cases h : cs.getLast? with
  | some c => simp
  | none =>
    have : ∀ l : List (Change × List Char), (∀ p ∈ l, p.1.n ≠ 0) →
        (l.find? fun p => (⟨0, []⟩ : Change) = p.1) = (l.find? fun p => (none : Option Change) = some p.1) := by
      intro l hl
      induction l with
      | nil => rfl
      | cons p l ih =>
        rw [List.find?_cons, List.find?_cons, ih (fun q hq => hl q (by simp [hq]))]
        have h1 : p.1.n ≠ 0 := hl p (by simp)
        have : ¬ (⟨0, []⟩ : Change) = p.1 := fun e => h1 (by rw [← e])
        simp [this]
    have := this (A.calls.zip A.names) fun p hp => hd _ (List.of_mem_zip hp).1
    simpa using this

/-- What a lead does. -/
def leadS (A : Args) (comma : Bool) (cs : List Change) (s : St) : St :=
  ⟨applyAll s.r cs, s.len + cs.length, s.out ++ (if comma = true ∧ s.len + cs.length ≠ 0 then [','] else []) ++ nameOf A cs⟩

variable {A : Args}

structure OK (A : Args) (es : List (Int × List Change)) : Prop where
  calls : ∀ d ∈ A.calls, d.n ≠ 0
  names : A.names.length = A.calls.length
  wf : ∀ cs ∈ leads es, ∀ c ∈ cs, c.WF ∧ c.n = A.bells

theorem leadC_eq (hd : ∀ d ∈ A.calls, d.n ≠ 0) (hn : A.names.length = A.calls.length) (comma : Bool) {cs : List Change}
    (hw : ∀ c ∈ cs, c.WF) (s : St) : leadC A comma cs s = .ok (leadS A comma cs s) := by
  unfold leadC leadS
  rw [applyAllC_eq hw, Out.ok_bind]
  dsimp only
  rw [nameC_spec A hd hn, Out.ok_bind]

theorem timesC_eq (hd : ∀ d ∈ A.calls, d.n ≠ 0) (hn : A.names.length = A.calls.length) (comma : Bool) {cs : List Change} :
    ∀ (n : Nat) (s : St), (0 < n → ∀ c ∈ cs, c.WF) →
    timesC A comma cs n s = .ok ((List.replicate n cs).foldl (fun s cs => leadS A comma cs s) s) := by
  intro n
  induction n with
  | zero => intros; rfl
  | succ n ih =>
    intro s hw
    rw [timesC, leadC_eq hd hn comma (hw (by omega)), Out.ok_bind, ih _ (fun _ => hw (by omega)), List.replicate_succ, List.foldl_cons]

theorem entriesC_eq (hd : ∀ d ∈ A.calls, d.n ≠ 0) (hn : A.names.length = A.calls.length) (comma : Bool) :
    ∀ (es : List (Int × List Change)) (s : St), (∀ cs ∈ leads es, ∀ c ∈ cs, c.WF) →
    entriesC A comma es s = .ok ((leads es).foldl (fun s cs => leadS A comma cs s) s) := by
  intro es
  induction es with
  | nil => intros; rfl
  | cons e es ih =>
    intro s hw
    have hw1 : 0 < e.1.toNat → ∀ c ∈ e.2, c.WF := fun h => hw e.2 (by simp [leads, List.mem_replicate]; left; omega)
    have hw2 : ∀ cs ∈ leads es, ∀ c ∈ cs, c.WF := fun cs h => hw cs (by simp only [leads, List.flatMap_cons, List.mem_append] at h ⊢; exact Or.inr h)
    rw [entriesC, timesC_eq hd hn comma _ _ hw1, Out.ok_bind, ih _ hw2]
    simp only [leads, List.flatMap_cons, List.foldl_append]

theorem foldl_r (comma : Bool) : ∀ (ls : List (List Change)) (s : St),
    (ls.foldl (fun s cs => leadS A comma cs s) s).r = applyAll s.r ls.flatten ∧
    (ls.foldl (fun s cs => leadS A comma cs s) s).len = s.len + ls.flatten.length := by
  intro ls
  induction ls with
  | nil => intro s; exact ⟨rfl, rfl⟩
  | cons l ls ih =>
    intro s
    rw [List.foldl_cons, (ih _).1, (ih _).2, List.flatten_cons, applyAll_append]
    refine ⟨rfl, ?_⟩
    simp [leadS]; omega

theorem foldl_plain : ∀ (ls : List (List Change)) (s : St),
    (ls.foldl (fun s cs => leadS A false cs s) s).out = s.out ++ ls.flatMap (nameOf A) := by
  intro ls
  induction ls with
  | nil => intro s; simp
  | cons l ls ih =>
    intro s
    rw [List.foldl_cons, ih, List.flatMap_cons]
    simp [leadS]

theorem foldl_comma : ∀ (ls : List (List Change)) (s : St), (∀ l ∈ ls, l ≠ []) →
    (ls.foldl (fun s cs => leadS A true cs s) s).out = s.out ++ ls.flatMap fun l => ',' :: nameOf A l := by
  intro ls
  induction ls with
  | nil => intro s _; simp
  | cons l ls ih =>
    intro s h
    rw [List.foldl_cons, ih _ (fun x hx => h x (by simp [hx])), List.flatMap_cons]
    have h0 : l ≠ [] := h l (by simp)
    simp [leadS, h0]

/-- The leads bring rounds to a row whose powers the repeats bring. -/
theorem power {n : Nat} {cs : List Change} (hw : ∀ c ∈ cs, c.WF ∧ c.n = n) (k : Nat) :
    applyAll (rounds n) (List.replicate k cs).flatten = npow (applyAll (rounds n) cs) k ∧
    (applyAll (rounds n) cs).length = n := by
  have hlen : (applyAll (rounds n) cs).length = n := by
    rw [length_applyAll (b := n) (fun c hc => (hw c hc).2.le) (by simp), length_rounds]
  refine ⟨?_, hlen⟩
  induction k with
  | zero => rw [npow, hlen]; rfl
  | succ k ih =>
    rw [List.replicate_succ', List.flatten_append, applyAll_append, ih, npow_add (applyAll (rounds n) cs) k 1, npow, npow, mul_rounds (a := applyAll (rounds n) cs) le_rfl, mul_applyAll (fun c hc => (hw c hc).1),
      mul_rounds (by simp [length_npow, hlen])]
    simp

theorem valid_lead {n : Nat} (hn : n ≤ 58) {cs : List Change} (hw : ∀ c ∈ cs, c.WF ∧ c.n = n) : Valid (applyAll (rounds n) cs) :=
  valid_applyAll (fun c hc => (hw c hc).1) (valid_rounds (by omega))

theorem parts {n : Nat} (hn : n ≤ 58) {cs : List Change} (hw : ∀ c ∈ cs, c.WF ∧ c.n = n) :
    Parts n cs (order (applyAll (rounds n) cs)) := by
  have hl := (power hw 0).2
  obtain ⟨_, h2, h3⟩ := order_spec (valid_lead hn hw) (by rw [hl]; exact hn)
  refine ⟨h2, fun k => ?_⟩
  rw [← h3, ← npow_eq_rounds_iff, Round, (power hw k).1, hl]

theorem parts_unique {n : Nat} {cs : List Change} {a b : Nat} (ha : Parts n cs a) (hb : Parts n cs b) : a = b :=
  Nat.dvd_antisymm ((ha.2 b).1 ((hb.2 b).2 dvd_rfl)) ((hb.2 a).1 ((ha.2 a).2 dvd_rfl))

/-- C94: without commas the line has the names of the calls of the leads, one after the other, the number of parts if
there are several, and the number of changes until it comes round. -/
theorem C94_line (A : Args) (es : List (Int × List Change)) (h : OK A es) (h58 : A.bells ≤ 58) (fuel : Nat) (hf : 0 < fuel) :
    ∃ o, Parts A.bells (leads es).flatten o ∧
      printC A false fuel es = .ok ((leads es).flatMap (nameOf A) ++ (if o = 1 then [] else " x".toList ++ Bell.decimal o) ++
        ("  (".toList ++ Bell.decimal ((leads es).flatten.length * o) ++ " changes)".toList)) := by
  have hw : ∀ c ∈ (leads es).flatten, c.WF ∧ c.n = A.bells := by
    intro c hc
    obtain ⟨l, hl, hc⟩ := List.mem_flatten.1 hc
    exact h.wf l hl c hc
  have hp := parts h58 hw
  refine ⟨_, hp, ?_⟩
  obtain ⟨fuel, rfl⟩ : ∃ f, fuel = f + 1 := ⟨fuel - 1, by omega⟩
  obtain ⟨ho, _, _⟩ := order_spec (valid_lead h58 hw) (by rw [(power hw 0).2]; exact h58)
  have hr := foldl_r (A := A) false (leads es) ⟨rounds A.bells, 0, []⟩
  have hout := foldl_plain (A := A) (leads es) ⟨rounds A.bells, 0, []⟩
  rw [printC, repeatC, entriesC_eq h.calls h.names _ _ _ (fun l hl c hc => (h.wf l hl c hc).1), Out.ok_bind, hr.1, ho, Out.ok_bind]
  simp only [Bool.false_eq_true, false_and, if_false, Out.ok_bind]
  rw [hr.1, ho, Out.ok_bind, hr.2, hout]
  have h0 := hp.1
  by_cases h1 : order (applyAll (rounds A.bells) (leads es).flatten) = 1
  · simp [h1]
  · rw [if_pos (by omega), if_neg h1]; simp

theorem repeat_comma (A : Args) (es : List (Int × List Change)) (h : OK A es) (h58 : A.bells ≤ 58) (hne : ∀ l ∈ leads es, l ≠ [])
    {o : Nat} (hp : Parts A.bells (leads es).flatten o) : ∀ (d k : Nat), k + d + 1 = o → ∀ (fuel : Nat), d < fuel → ∀ (s : St),
    s.r = applyAll (rounds A.bells) (List.replicate k (leads es).flatten).flatten →
    ∃ s', repeatC A true es fuel s = .ok s' ∧ s'.r = rounds A.bells ∧
      s'.out = s.out ++ (List.replicate (d + 1) ((leads es).flatMap fun l => ',' :: nameOf A l)).flatten := by
  have hw : ∀ c ∈ (leads es).flatten, c.WF ∧ c.n = A.bells := by
    intro c hc
    obtain ⟨l, hl, hc⟩ := List.mem_flatten.1 hc
    exact h.wf l hl c hc
  intro d
  induction d with
  | zero =>
    intro k hk fuel hf s hs
    obtain ⟨fuel, rfl⟩ : ∃ f, fuel = f + 1 := ⟨fuel - 1, by omega⟩
    have hr := foldl_r (A := A) true (leads es) s
    have hR : applyAll s.r (leads es).flatten = rounds A.bells := by
      rw [hs, ← applyAll_append]
      have := (hp.2 o).2 dvd_rfl
      rw [Round, ← hk, show k + 0 + 1 = k + 1 by omega, List.replicate_succ', List.flatten_append] at this
      simpa using this
    refine ⟨_, ?_, by rw [hr.1, hR], by rw [foldl_comma _ _ hne]; simp⟩
    rw [repeatC, entriesC_eq h.calls h.names _ _ _ (fun l hl c hc => (h.wf l hl c hc).1), Out.ok_bind, hr.1, hR]
    obtain ⟨ho, h2, h3⟩ := order_spec (valid_rounds (n := A.bells) (by omega)) (by simpa using h58)
    have : order (rounds A.bells) ∣ 1 := (h3 1).1 (by intro i; simp [Spec.iter])
    have : order (rounds A.bells) = 1 := Nat.dvd_one.1 this
    rw [ho, this]; rfl
  | succ d ih =>
    intro k hk fuel hf s hs
    obtain ⟨fuel, rfl⟩ : ∃ f, fuel = f + 1 := ⟨fuel - 1, by omega⟩
    have hr := foldl_r (A := A) true (leads es) s
    have hR : applyAll s.r (leads es).flatten = applyAll (rounds A.bells) (List.replicate (k + 1) (leads es).flatten).flatten := by
      rw [hs, ← applyAll_append, List.replicate_succ', List.flatten_append]; simp
    obtain ⟨s', h1, h2, h3⟩ := ih (k + 1) (by omega) fuel (by omega) _ (hr.1.trans hR)
    refine ⟨s', ?_, h2, ?_⟩
    · rw [repeatC, entriesC_eq h.calls h.names _ _ _ (fun l hl c hc => (h.wf l hl c hc).1), Out.ok_bind, hr.1, hR, (power hw _).1]
      have hv := valid_npow (valid_lead h58 hw) (k + 1)
      have hl : (npow (applyAll (rounds A.bells) (leads es).flatten) (k + 1)).length = A.bells := by rw [length_npow, (power hw 0).2]
      obtain ⟨ho, g2, g3⟩ := order_spec hv (by rw [hl]; exact h58)
      have hno : order (npow (applyAll (rounds A.bells) (leads es).flatten) (k + 1)) ≠ 1 := by
        intro e
        have := (g3 1).2 (by rw [e])
        have : npow (applyAll (rounds A.bells) (leads es).flatten) (k + 1) = rounds A.bells := by
          apply ext_fn (by rw [hl]; simp)
          intro i _
          rw [fn_rounds]; exact this i
        have := (hp.2 (k + 1)).1 (by rw [Round, (power hw _).1]; exact this)
        have := Nat.le_of_dvd (by omega) this
        omega
      rw [ho, Out.ok_bind, if_pos ⟨rfl, by omega⟩]
      exact h1
    · rw [h3, foldl_comma _ _ hne, List.replicate_succ (n := d + 1)]
      simp

/-- C94: with commas the leads are written out until it comes round, with a comma before each, the first as well, and
nothing else. -/
theorem C94_commas (A : Args) (es : List (Int × List Change)) (h : OK A es) (h58 : A.bells ≤ 58) (hne : ∀ l ∈ leads es, l ≠ []) :
    ∃ o, Parts A.bells (leads es).flatten o ∧ ∀ fuel, o ≤ fuel →
      printC A true fuel es = .ok (List.replicate o ((leads es).flatMap fun l => ',' :: nameOf A l)).flatten := by
  have hw : ∀ c ∈ (leads es).flatten, c.WF ∧ c.n = A.bells := by
    intro c hc
    obtain ⟨l, hl, hc⟩ := List.mem_flatten.1 hc
    exact h.wf l hl c hc
  have hp := parts h58 hw
  refine ⟨_, hp, ?_⟩
  intro fuel hf
  generalize order (applyAll (rounds A.bells) (leads es).flatten) = o at hp hf
  obtain ⟨s, h1, h2, h3⟩ := repeat_comma A es h h58 hne hp (o - 1) 0 (by have := hp.1; omega) fuel (by have := hp.1; omega)
    ⟨rounds A.bells, 0, []⟩ (by simp [applyAll])
  rw [printC, h1, Out.ok_bind, h2]
  obtain ⟨ho, g2, g3⟩ := order_spec (valid_rounds (n := A.bells) (by omega)) (by simpa using h58)
  have : order (rounds A.bells) ∣ 1 := (g3 1).1 (by intro i; simp [Spec.iter])
  have : order (rounds A.bells) = 1 := Nat.dvd_one.1 this
  have e : o - 1 + 1 = o := by have := hp.1; omega
  rw [ho, this, Out.ok_bind, h3, e]; simp

/-- C94: a touch of leads that are not empty is printed with a comma before the first lead. -/
theorem C94_first_comma (A : Args) (es : List (Int × List Change)) (h : OK A es) (h58 : A.bells ≤ 58) (hne : ∀ l ∈ leads es, l ≠ [])
    (h0 : leads es ≠ []) : ∃ N line, ∀ fuel, N ≤ fuel → printC A true fuel es = .ok (',' :: line) := by
  obtain ⟨o, hp, hh⟩ := C94_commas A es h h58 hne
  obtain ⟨o, rfl⟩ : ∃ f, o = f + 1 := ⟨o - 1, by have := hp.1; omega⟩
  obtain ⟨l, ls, e⟩ := List.exists_cons_of_ne_nil h0
  refine ⟨o + 1, nameOf A l ++ (ls.flatMap fun l => ',' :: nameOf A l) ++
    (List.replicate o ((leads es).flatMap fun l => ',' :: nameOf A l)).flatten, fun fuel hf => ?_⟩
  rw [hh fuel hf, List.replicate_succ, List.flatten_cons]
  have : ((leads es).flatMap fun l => ',' :: nameOf A l) = ',' :: (nameOf A l ++ ls.flatMap fun l => ',' :: nameOf A l) := by
    rw [e, List.flatMap_cons]; rfl
  generalize (List.replicate o ((leads es).flatMap fun l => ',' :: nameOf A l)).flatten = x
  rw [this]; rfl

/-- Plain hunt on four bells with bobs 14 and singles 1234. -/
def exA : Args where
  bells := 4
  calls := [⟨4, [1]⟩, ⟨4, []⟩]
  names := [['b'], ['s']]
  plain := ['p']

/-- A lead of seven changes and the change at its end. -/
def exLead (c : Change) : List Change := [⟨4, [0, 2]⟩, ⟨4, [1]⟩, ⟨4, [0, 2]⟩, ⟨4, [1]⟩, ⟨4, [0, 2]⟩, ⟨4, [1]⟩, ⟨4, [0, 2]⟩, c]

/-- Two plain leads (12) and a single. -/
def exT : List (Int × List Change) := [(2, exLead ⟨4, [2]⟩), (1, exLead ⟨4, []⟩)]

example : OK exA exT := ⟨by decide, by decide, by decide +kernel⟩
example : printC exA false 1 exT = .ok "pps x2  (48 changes)".toList := by decide +kernel
example : printC exA true 2 exT = .ok ",p,p,s,p,p,s".toList := by decide +kernel

end PrintTouch
end Ringing
