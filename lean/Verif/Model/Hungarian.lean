/-!
# Model: the Hungarian method

ir/adt/hungarian.c.  Numbers are integers without bounds (the sums of costs are below 2^31); arrays are functions, `~0u` and `INT_MAX` are `none`.
Loops that need not end have fuel; `none`: it is used up.
-/
namespace Verif.Model.Hungarian

def upd {α : Type} (f : Nat → α) (i : Nat) (v : α) : Nat → α := fun j => if j = i then v else f j

/-- a problem: the matrix is square; `missingLeft` and `missingRight` are used for HUNGARIAN_MATCH_NORMAL only -/
structure Problem where
  size : Nat
  cost : Nat → Nat → Int
  maxCost : Int
  normal : Bool
  missingLeft : Nat → Bool
  missingRight : Nat → Bool

/-- `hungarian_new`, ir/adt/hungarian.c:78-105 -/
def new (rows cols : Nat) (normal : Bool) : Problem := ⟨max cols rows, fun _ _ => 0, 0, normal, fun _ => true, fun _ => true⟩

/-- `hungarian_add`, ir/adt/hungarian.c:126-139 -/
def add (p : Problem) (l r : Nat) (c : Int) : Problem :=
  { p with cost := upd p.cost l (upd (p.cost l) r c), maxCost := max p.maxCost c,
           missingLeft := if p.normal then upd p.missingLeft l false else p.missingLeft,
           missingRight := if p.normal then upd p.missingRight r false else p.missingRight }

/-- `hungarian_remove`, ir/adt/hungarian.c:141-152 -/
def remove (p : Problem) (l r : Nat) : Problem :=
  { p with cost := upd p.cost l (upd (p.cost l) r 0),
           missingLeft := if p.normal then upd p.missingLeft l true else p.missingLeft,
           missingRight := if p.normal then upd p.missingRight r true else p.missingRight }

/-- `hungarian_prepare_cost_matrix` for HUNGARIAN_MODE_MAXIMIZE_UTIL, ir/adt/hungarian.c:107-124 -/
def prepareMax (p : Problem) : Problem := { p with cost := fun r c => p.maxCost - p.cost r c }

/-- the minimum of a column, ir/adt/hungarian.c:185-189 -/
def colMin (n : Nat) (cost : Nat → Nat → Int) (c : Nat) : Int := (List.range n).foldl (fun m r => if cost r c < m then cost r c else m) (cost 0 c)

/-- column minima are subtracted, ir/adt/hungarian.c:184-196 -/
def reduce (n : Nat) (cost : Nat → Nat → Int) : Nat → Nat → Int := fun r c => cost r c - colMin n cost c

/-- the minimum of a row, ir/adt/hungarian.c:209-213 -/
def rowMin (n : Nat) (cost : Nat → Nat → Int) (r : Nat) : Int := (List.range n).foldl (fun m c => if cost r c < m then cost r c else m) (cost r 0)

/-- `col_mate` and `row_mate` -/
structure Mates where
  col : Nat → Option Nat
  row : Nat → Option Nat

/-- the initial state, a row, ir/adt/hungarian.c:208-233: the matching, and `unchosen_row` -/
def initRow (n : Nat) (cost : Nat → Nat → Int) (s : Mates × List Nat) (r : Nat) : Mates × List Nat :=
  match (List.range n).find? (fun c => cost r c = rowMin n cost r && (s.1.row c).isNone) with
  | some c => (⟨upd s.1.col r (some c), upd s.1.row c (some r)⟩, s.2)
  | none => (⟨upd s.1.col r none, s.1.row⟩, s.2 ++ [r])

/-- the forest, and the duals; `q` rows of `unchosen` are explored -/
structure Forest where
  rowDec : Nat → Int
  colInc : Nat → Int
  slack : Nat → Option Int
  slackRow : Nat → Nat
  parent : Nat → Option Nat
  unchosen : List Nat
  q : Nat

/-- a breakthrough: the row and the column, with the duals -/
structure Break where
  r : Nat
  c : Nat
  f : Forest

/-- `del < slack[c]` -/
def below (del : Int) : Option Int → Bool
  | none => true
  | some x => decide (del < x)

/-- a column, when row `r` is explored, ir/adt/hungarian.c:253-275; `s` is `row_dec[r]` -/
def exploreCol (cost : Nat → Nat → Int) (m : Mates) (r : Nat) (s : Int) (c : Nat) (f : Forest) : Break ⊕ Forest :=
  if f.slack c = some 0 then .inr f
  else
    let del := cost r c - s + f.colInc c
    if below del (f.slack c) then
      if del = 0 then
        match m.row c with
        | none => .inl ⟨r, c, f⟩
        | some x => .inr { f with slack := upd f.slack c (some 0), parent := upd f.parent c (some r), unchosen := f.unchosen ++ [x] }
      else .inr { f with slack := upd f.slack c (some del), slackRow := upd f.slackRow c r }
    else .inr f

/-- columns one after the other, until there is a breakthrough -/
def cols (step : Nat → Forest → Break ⊕ Forest) : List Nat → Forest → Break ⊕ Forest
  | [], f => .inr f
  | c :: cs, f =>
    match step c f with
    | .inl b => .inl b
    | .inr f => cols step cs f

/-- the least slack that is not 0, ir/adt/hungarian.c:281-285 -/
def leastSlack (n : Nat) (f : Forest) : Option Int :=
  (List.range n).foldl (fun s c =>
    match f.slack c, s with
    | some x, some y => if x ≠ 0 ∧ x < y then some x else some y
    | some x, none => if x ≠ 0 then some x else none
    | none, s => s) none

/-- a column, when a new zero is introduced, ir/adt/hungarian.c:291-314 -/
def zeroCol (n : Nat) (m : Mates) (s : Int) (c : Nat) (f : Forest) : Break ⊕ Forest :=
  match f.slack c with
  | none => .inr f
  | some x =>
    if x = 0 then .inr { f with colInc := upd f.colInc c (f.colInc c + s) }
    else
      let f := { f with slack := upd f.slack c (some (x - s)) }
      if x - s = 0 then
        match m.row c with
        | none => .inl ⟨f.slackRow c, c, { f with colInc := fun j => if c < j ∧ j < n ∧ f.slack j = some 0 then f.colInc j + s else f.colInc j }⟩
        | some y => .inr { f with parent := upd f.parent c (some (f.slackRow c)), unchosen := f.unchosen ++ [y] }
      else .inr f

/-- the search for a breakthrough, ir/adt/hungarian.c:246-317 -/
def search (n : Nat) (cost : Nat → Nat → Int) (m : Mates) : Nat → Forest → Option Break
  | 0, _ => none
  | fuel + 1, f =>
    match f.unchosen[f.q]? with
    | some r =>
      match cols (exploreCol cost m r (f.rowDec r)) (List.range n) f with
      | .inl b => some b
      | .inr f => search n cost m fuel { f with q := f.q + 1 }
    | none =>
      match leastSlack n f with
      | none => none
      | some s =>
        match cols (zeroCol n m s) (List.range n) { f with rowDec := fun r => if r ∈ f.unchosen then f.rowDec r + s else f.rowDec r } with
        | .inl b => some b
        | .inr f => search n cost m fuel f

/-- the matching is updated, ir/adt/hungarian.c:319-335 -/
def augment (parent : Nat → Option Nat) : Nat → Nat → Nat → Mates → Option Mates
  | 0, _, _, _ => none
  | fuel + 1, r, c, m =>
    let j := m.col r
    let m := ⟨upd m.col r (some c), upd m.row c (some r)⟩
    match j with
    | none => some m
    | some j =>
      match parent j with
      | none => none
      | some r => augment parent fuel r j m

/-- the stages, ir/adt/hungarian.c:240-354; `u` is `unmatched` -/
def stages (n : Nat) (cost : Nat → Nat → Int) (fuel : Nat) : Nat → Mates → Forest → Option (Mates × Forest)
  | 0, m, f => some (m, f)
  | u + 1, m, f =>
    match search n cost m fuel f with
    | none => none
    | some b =>
      match augment b.f.parent fuel b.r b.c m with
      | none => none
      | some m =>
        stages n cost fuel u m
          { b.f with slack := fun _ => none, parent := fun _ => none, q := 0, unchosen := (List.range n).filter fun r => (m.col r).isNone }

/-- a row without a mate, or with a pair that is not tight, ir/adt/hungarian.c:367-374 -/
def loose (cost : Nat → Nat → Int) (m : Mates) (f : Forest) (r : Nat) : Bool :=
  match m.col r with
  | none => true
  | some c => decide (cost r c ≠ f.rowDec r - f.colInc c)

/-- `double check the solution`, ir/adt/hungarian.c:357-385 -/
def check (n : Nat) (cost : Nat → Nat → Int) (m : Mates) (f : Forest) : Int :=
  if (List.range n).any (fun r => (List.range n).any fun c => decide (cost r c < f.rowDec r - f.colInc c)) then -1
  else if (List.range n).any (loose cost m f) then -2
  else if n < ((List.range n).filter fun c => decide (f.colInc c ≠ 0)).length then -3
  else 0

/-- what `hungarian_solve` gives: the return value, `col_mate`, `assignment` and `final_cost` -/
structure Result where
  code : Int
  mate : Nat → Option Nat
  assignment : Nat → Option Nat
  cost : Int

def sum (n : Nat) (f : Nat → Int) : Int := ((List.range n).map f).sum

/-- `hungarian_solve`, ir/adt/hungarian.c:162-433 -/
def solve (fuel : Nat) (p : Problem) (threshold : Int) : Option Result :=
  let n := p.size
  let cost := reduce n p.cost
  let i := (List.range n).foldl (initRow n cost) (⟨fun _ => none, fun _ => none⟩, [])
  match stages n cost fuel i.2.length i.1 ⟨rowMin n cost, fun _ => 0, fun _ => none, fun _ => 0, fun _ => none, i.2, 0⟩ with
  | none => none
  | some (m, f) =>
    let assignment := fun r =>
      match m.col r with
      | none => none
      | some c =>
        if 0 < threshold ∧ threshold ≤ cost r c then none
        else if p.normal && (p.missingLeft r || p.missingRight c) then none
        else some c
    some ⟨check n cost m f, m.col, assignment, sum n (colMin n p.cost) + sum n f.rowDec - sum n f.colInc⟩

end Verif.Model.Hungarian
