import Verif.Spec.IR
/-!
# Model of the lowering of Switch nodes (`ir/lower/lower_switch.c`)

Target values are represented by the integers they denote; target value arithmetic and conversion wrap to the mode (C01, C07), and
equality of target value pointers is equality of values (C09).  Graph construction is represented by a tree of conditional jumps whose
leaves name the Proj number of the Switch the jump is redirected to (0 = `pn_Switch_default`); blocks, Phis and debug info are not
modelled.
-/
namespace Verif.Model.LowerSwitch
open Verif.Spec

/-- `struct ir_switch_table_entry`, ir/ir/irnode_t.h:77-81 -/
structure Entry where
  min : Int
  max : Int
  pn : Nat
  deriving DecidableEq

/-- `compare_entries`, ir/lower/lower_switch.c:112-128; the assertion of line 126 is a precondition -/
def compareEntries (a b : Entry) : Int :=
  if a.pn = 0 then 1
  else if b.pn = 0 then -1
  else if a.max < b.min then -1
  else 1

/-- what `QSORT` (the C library) guarantees: a permutation in which no element compares less than an earlier one -/
def IsQSort (l s : List Entry) : Prop := s.Perm l ∧ s.Pairwise (fun a b => ¬ compareEntries b a < 0)

/-- the body of the loop of `normalize_table`, ir/lower/lower_switch.c:147-162 -/
def normalizeEntry (newMode : IMode) (delta : Option Int) (e : Entry) : Entry :=
  let conv (x : Int) : Int := match delta with
    | none => newMode.wrap x
    | some d => newMode.wrap (newMode.wrap x - d)
  if e.min = e.max then { e with min := conv e.min, max := conv e.min }
  else { e with min := conv e.min, max := conv e.max }

/-- `normalize_table`, ir/lower/lower_switch.c:130-164, on the sorted table: cut off at the first default entry -/
def normalizeTable (newMode : IMode) (delta : Option Int) (sorted : List Entry) : List Entry :=
  (sorted.takeWhile (fun e => e.pn ≠ 0)).map (normalizeEntry newMode delta)

/-- the comparisons that are built -/
inductive Test
  /-- `Cmp(sel, v, equal)` -/
  | eq (v : Int)
  /-- `Cmp(sel, v, less)` -/
  | less (v : Int)
  /-- `Cmp(Sub(sel, min), adj, less_equal)` -/
  | range (min adj : Int)
  deriving DecidableEq

/-- the jumps that are built -/
inductive Tree
  /-- jump to the target of a Proj number -/
  | goto (pn : Nat)
  /-- `Cond` -/
  | cond (t : Test) (yes no : Tree)

/-- `create_case_cond`, ir/lower/lower_switch.c:276-293 -/
def caseCond (m : IMode) (e : Entry) : Test :=
  if e.min = e.max then .eq e.min else .range e.min (m.wrap (e.max - e.min))

/-- `create_if_cascade`, ir/lower/lower_switch.c:316-372 -/
def cascade (m : IMode) : List Entry → Tree
  | [] => .goto 0
  | [e] => .cond (caseCond m e) (.goto e.pn) (.goto 0)
  | [e0, e1] => .cond (caseCond m e0) (.goto e0.pn) (.cond (caseCond m e1) (.goto e1.pn) (.goto 0))
  | e0 :: e1 :: e2 :: rest =>
    let cs := e0 :: e1 :: e2 :: rest
    let mid := cs.length / 2
    -- `curcases[midcase]`; in bounds, so the default value is never used
    .cond (.less (cs.getD mid e0).min) (cascade m (cs.take mid)) (cascade m (cs.drop mid))
  termination_by cs => cs.length
  decreasing_by all_goals (simp only [List.length_take, List.length_drop, List.length_cons]; omega)

/-- `switch_min`, `switch_max` and `num_cases` of `analyse_switch0`, ir/lower/lower_switch.c:50-77; `lo`, `hi` are the smallest and the
largest value of the mode -/
def analyse (lo hi : Int) (table : List Entry) : Int × Int × Nat :=
  table.foldl (fun (mn, mx, n) e =>
    if e.pn = 0 then (mn, mx, n)
    else (if e.min < mn then e.min else mn, if mx < e.max then e.max else mx, n + 1)) (hi, lo, 0)

/-- smallest value of an integer mode -/
def modeMin (m : IMode) : Int := if m.signed then -2 ^ (m.bits - 1) else 0
/-- largest value of an integer mode -/
def modeMax (m : IMode) : Int := if m.signed then 2 ^ (m.bits - 1) - 1 else 2 ^ m.bits - 1

/-- `find_unsigned_mode`, ir/ir/irmode.c:461-472 -/
def unsignedMode (m : IMode) : IMode := { m with signed := false }

/-- a normalised Switch: the selector is `Conv(selMode, Sub(Conv(unsignedMode, sel), sub))`, guarded by
`Cmp(Sub(..), bound, less_equal)` with the default target on the false side -/
structure Normalized where
  /-- constant subtracted from the unsigned selector, 0 when there is no Sub node -/
  sub : Int
  /-- constant of the out-of-bounds check -/
  bound : Int
  table : List Entry
  deriving DecidableEq

/-- `normalize_switch`, ir/lower/lower_switch.c:224-270, with `create_out_of_bounds_check`, 166-219; `selMode` is the unsigned mode the
backend wants; `mn`, `mx` the result of `analyse`, `sorted` the sorted table.  Both cases of line 231 are covered by the wrap to the
unsigned mode (for an unsigned mode it changes nothing). -/
def normalizeSwitch (m selMode : IMode) (mn mx : Int) (sorted : List Entry) : Normalized :=
  let um := unsignedMode m
  let min := um.wrap mn
  let max := um.wrap mx
  if min = 0 then ⟨0, max, normalizeTable selMode none sorted⟩
  else ⟨min, um.wrap (max - min), normalizeTable selMode (some (selMode.wrap min)) sorted⟩

/-- the decision of `find_switch_nodes`, ir/lower/lower_switch.c:404-413 -/
def lowerToCascade (m : IMode) (smallSwitch spareSize : Nat) (mn mx : Int) (numCases : Nat) : Bool :=
  let um := unsignedMode m
  let spare := um.wrap (um.wrap (m.wrap (mx - mn)) - um.wrap ((numCases : Int) - 1))
  decide (numCases ≤ smallSwitch) || decide (um.wrap spareSize ≤ spare)

/-- what becomes of a Switch -/
inductive Lowered
  | cascade (t : Tree)
  | table (n : Normalized)

/-- `find_switch_nodes`, ir/lower/lower_switch.c:377-437, for a Switch on a selector of mode `m`; `sorted` is the table after `QSORT` -/
def lowerSwitch (m selMode : IMode) (smallSwitch spareSize : Nat) (table sorted : List Entry) : Lowered :=
  match analyse (modeMin m) (modeMax m) table with
  | (mn, mx, n) =>
    if lowerToCascade m smallSwitch spareSize mn mx n then .cascade (cascade m (normalizeTable m none sorted))
    else .table (normalizeSwitch m selMode mn mx sorted)

end Verif.Model.LowerSwitch
