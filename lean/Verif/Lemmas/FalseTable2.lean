import Mathlib.Data.List.Permutation
import Verif.Lemmas.FalseTable
import Verif.Lemmas.FalseGroup2
import Verif.Props.Group
/-
What the checked tables say about rows.
-/
namespace Ringing
namespace Falseness
open Spec

/-- The representatives by name. -/
def reps : List (Nat × Nat) :=
  [(16640, 5517840), (16945, 4530960), (16946, 3428880), (17201, 3298320), (17202, 4526880), (17457, 5456160),
   (17458, 5514000), (17713, 4534560), (17714, 4346640), (17969, 3428640), (17970, 2442000), (18176, 2176320),
   (18481, 1389120), (18482, 1262880), (18688, 1200960), (19249, 3232320), (19250, 5325600), (19251, 1385280),
   (19505, 2311440), (19506, 4396320), (19712, 3490320), (20017, 1393440), (20018, 3478080), (20019, 3297600),
   (20273, 3228960), (20274, 1266240), (20529, 5317440), (20530, 1254720), (20992, 1266720), (21248, 4281120),
   (21553, 5391120), (21554, 3490080), (21809, 5509920), (21810, 3478560), (24881, 4534800), (24882, 5456400),
   (25088, 2315280), (25344, 5444640), (25600, 1332000), (25856, 4273440), (26112, 2184000)]

/-- The representatives on eight bells by letter. -/
def reps8 : List (Nat × Nat) :=
  [(65, 1985229328), (66, 1984242448), (67, 1983009808), (68, 1985167648), (69, 1984246048), (70, 1983140128),
   (71, 1981887808), (72, 1981100608), (73, 1980912448), (75, 1982943808), (76, 1982022928), (77, 1983201808),
   (78, 1981104928), (79, 1982940448), (80, 1985028928), (82, 1980978208), (83, 1983992608), (84, 1985102608),
   (85, 1985221408), (97, 1984246288), (98, 1982026768), (99, 1985156128), (100, 1981043488),
   (101, 1983984928), (102, 1981895488), (88, 1933710688), (89, 1898198368), (90, 1949377888)]

/-! ### More checks -/

/-- The bells of a turned row. -/
def turned (s k : Int) (x v : Nat) : Nat := if v = 0 then 0 else unlab (conjF s k (dig x) v)

/-- Whether turning is possible. -/
def canTurn (s k : Int) (x v : Nat) : Bool :=
  decide (-2 ≤ s * labZ v + k ∧ s * labZ v + k ≤ 2) || Nat.beq (dig x v) v

/-- A turned row has no other name. -/
noncomputable def checkTurn (s k : Int) : Bool :=
  allB (fun x => Bool.rec true
    (Bool.rec (Nat.beq (lookB (encode (turned s k x.1) 6) heads) 0) true
      (Nat.beq (lookB (encode (turned s k x.1) 6) heads) x.2))
    (canTurn s k x.1 1 && (canTurn s k x.1 2 && (canTurn s k x.1 3 && (canTurn s k x.1 4 && canTurn s k x.1 5)))))
    heads

/-- The row, the representative and how it is turned. -/
noncomputable def checkTurns (h : Nat × Nat) : Bool :=
  !(allB (fun w => match w with
    | (x, r, t, s, k) =>
      !(Nat.beq x h.1 && (Nat.beq r (lookB h.2 reps) && (!(Nat.beq (lookB t heads) 0) && (Nat.beq (lookB r heads) h.2 &&
        ((Nat.beq r t || allN (fun m => Nat.beq (dig r (dig t m)) m) 6) && (Nat.ble k 8 &&
        (allN (fun v => Nat.beq (dig x v) (turned (if s = 1 then 1 else -1) ((k : Int) - 4) t v)) 6 &&
        allN (fun v => canTurn (if s = 1 then 1 else -1) ((k : Int) - 4) t v) 6)))))))) turns)

set_option maxRecDepth 100000

theorem turn_ok : (checkTurn 1 (-4) && (checkTurn 1 (-3) && (checkTurn 1 (-2) && (checkTurn 1 (-1) && (checkTurn 1 0 &&
    (checkTurn 1 1 && (checkTurn 1 2 && (checkTurn 1 3 && (checkTurn 1 4 && (checkTurn (-1) (-4) &&
    (checkTurn (-1) (-3) && (checkTurn (-1) (-2) && (checkTurn (-1) (-1) && (checkTurn (-1) 0 && (checkTurn (-1) 1 &&
    (checkTurn (-1) 2 && (checkTurn (-1) 3 && checkTurn (-1) 4))))))))))))))))) = true := by decide +kernel

theorem turns_ok : allB checkTurns heads = true := by decide +kernel

theorem heads_ok : checkKnown 6 0 0 heads heads = true := by decide +kernel

/-- The bells of a course head are bells. -/
theorem heads_lt : allB (fun h => allN (fun i => Nat.blt (dig h.1 i) 6) 6) heads = true := by decide +kernel

theorem perm8 : ∀ x ∈ known8 ++ inverse8, (decode 8 x.1).Perm (List.range 8) := by decide +kernel
theorem perm10 : ∀ x ∈ known10, (decode 10 x.1).Perm (List.range 10) := by decide +kernel
theorem perm12 : ∀ x ∈ known12, (decode 12 x.1).Perm (List.range 12) := by decide +kernel

theorem group8 : (Group.ofRowsC (firstLeadHead 8) (seconds 8) >>= fun g => .ok g.v) = .ok (pbs8.map (decode 8)) := by
  decide +kernel
theorem group10 : (Group.ofRowsC (firstLeadHead 10) (seconds 10) >>= fun g => .ok g.v) = .ok (pbs10.map (decode 10)) := by
  decide +kernel
theorem group12 : (Group.ofRowsC (firstLeadHead 12) (seconds 12) >>= fun g => .ok g.v) = .ok (pbs12.map (decode 12)) := by
  decide +kernel

/-- The row that begins with the six bells. -/
def ext (b c : Nat) : Row := (List.range b).map fun i => if i < 6 then dig c i else i

/-- A name from its number. -/
def nameOf (c : Nat) : List Char :=
  if c % 256 = 0 then [Char.ofNat (c / 256)] else [Char.ofNat (c / 256), Char.ofNat (c % 256)]

/-- The named rows with split tenors. -/
def xyz : List (Row × List Char) :=
  [([0, 6, 5, 1, 2, 4, 3, 7], "X".toList), ([0, 6, 5, 3, 4, 2, 1, 7], "Y".toList), ([0, 6, 5, 2, 1, 3, 4, 7], "Z".toList)]

theorem known8_rows : known8.map (fun k => (decode 8 k.1, [Char.ofNat k.2])) =
    heads.map (fun h => (ext 8 h.1, shortName 8 (nameOf h.2))) ++ xyz := by decide +kernel
theorem known10_rows : known10.map (fun k => (decode 10 k.1, nameOf k.2)) =
    heads.map (fun h => (ext 10 h.1, shortName 10 (nameOf h.2))) := by decide +kernel
theorem known12_rows : known12.map (fun k => (decode 12 k.1, nameOf k.2)) =
    heads.map (fun h => (ext 12 h.1, shortName 12 (nameOf h.2))) := by decide +kernel

theorem parsed_rows : initData.map (fun p => (Row.ofStringC p.1.toList, p.2.toList)) =
    heads.map fun h => (.ok (decode 6 h.1), nameOf h.2) := by decide +kernel

/-- The rows that begin with the treble and end with the bells from the seventh on are all in the table. -/
theorem heads_all : allB (fun t => !(Nat.beq (lookB (encode (nthB (0 :: t)) 6) heads) 0)) [1, 2, 3, 4, 5].permutations' =
    true := by decide +kernel

/-- All the rows on eight bells with the treble and tenor at home are moved. -/
theorem eight_all : allB (fun t => !(allB (fun w => !(Nat.beq w.1 (encode (nthB (0 :: t ++ [7])) 8))) moves8))
    [1, 2, 3, 4, 5, 6].permutations' = true := by decide +kernel

/-- The named rows on eight bells are moved from the representative of the name. -/
theorem eight_reps : allB (fun x => !(allB (fun w => !(Nat.beq w.1 x.1 && Nat.beq w.2.1 (lookB x.2 reps8))) moves8)) known8 =
    true := by decide +kernel

/-- On ten bells B1 and D1 are one group. -/
theorem ten_ok : allN (fun i => Nat.beq (dig 654820196640 i) (dig 142864648080 (dig 654819271440 (dig 78187493520 i)))) 10 =
    true := by decide +kernel

/-- The representatives are those of the specification. -/
theorem groups_ok : standard.map (fun g => (courseHead 6 g.2, g.1.toList)) = reps.map fun r => (decode 6 r.2, nameOf r.1) := by
  decide +kernel

theorem split_ok : splitTenors.map (fun g => (courseHead 8 g.2, g.1.toList)) = xyz := by decide +kernel

end Falseness
end Ringing
