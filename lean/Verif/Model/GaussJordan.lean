import Verif.Spec.Linear
/-!
# Model: `firm_gaussjordansolve`

ir/adt/gaussjordan.c.  Numbers are rational (no rounding of doubles).  Rows, columns and unknowns are exchanged at once, not element by element; the search for
the largest entry starts at position 0, 0 in each round (the code keeps the last position, which is used only if an entry is found).
-/
namespace Verif.Model.GaussJordan

structure State where
  A : Nat → Nat → Rat
  v : Nat → Rat
  x : Nat → Nat

/-- what happens: the return value -1, a division by 0 (infinite or no numbers in the result, return value 0), access outside of the arrays, or a solution -/
inductive Outcome where
  | singular | divZero | outside
  | solved (z : Nat → Rat)

def abs (q : Rat) : Rat := if q < 0 then -q else q

/-- SMALL, ir/adt/gaussjordan.c:34 -/
def small : Rat := 1 / 100000

/-- one entry in the search, ir/adt/gaussjordan.c:57-62 -/
def look (A : Nat → Nat → Rat) (b : Nat × Nat × Rat) (p : Nat × Nat) : Nat × Nat × Rat :=
  if b.2.2 < abs (A p.1 p.2) then (p.1, p.2, abs (A p.1 p.2)) else b

/-- the entries from `col` on, row by row, ir/adt/gaussjordan.c:55-56 -/
def cells (n col : Nat) : List (Nat × Nat) :=
  (List.range' col (n - col)).flatMap fun r => (List.range' col (n - col)).map fun c => (r, c)

/-- the largest entry left, ir/adt/gaussjordan.c:53-64 -/
def largest (n col : Nat) (A : Nat → Nat → Rat) : Nat × Nat × Rat := (cells n col).foldl (look A) (0, 0, 0)

def sw (a b i : Nat) : Nat := if i = a then b else if i = b then a else i

/-- rows and columns are exchanged, ir/adt/gaussjordan.c:70-90 -/
def exchange (col r c : Nat) (s : State) : State :=
  ⟨fun i j => s.A (sw col r i) (sw col c j), fun i => s.v (sw col r i), fun j => s.x (sw col c j)⟩

/-- the column is made 0 below the diagonal, ir/adt/gaussjordan.c:92-104 -/
def annihilate (col : Nat) (s : State) : State :=
  ⟨fun r i => if col < r ∧ col ≤ i then s.A r i - s.A r col / s.A col col * s.A col i else s.A r i,
   fun r => if col < r then s.v r - s.A r col / s.A col col * s.v col else s.v r, s.x⟩

/-- the columns from `col` on, ir/adt/gaussjordan.c:52-105; `none` is the return value -1 -/
def triangle (n : Nat) : Nat → Nat → State → Option State
  | 0, _, s => some s
  | k + 1, col, s =>
    if (largest n col s.A).2.2 < small then none
    else triangle n k (col + 1) (annihilate col (exchange col (largest n col s.A).1 (largest n col s.A).2.1 s))

def upd {α : Type} (f : Nat → α) (i : Nat) (a : α) : Nat → α := fun j => if j = i then a else f j

/-- `sum`, ir/adt/gaussjordan.c:112-114; `t` is the conversion to the type of the variable -/
def acc (t : Rat → Rat) (f : Nat → Rat) (lo : Nat) : Nat → Rat
  | 0 => 0
  | k + 1 => t (acc t f lo k + f (lo + k))

/-- the back substitution after `k` rounds, ir/adt/gaussjordan.c:107-116 -/
def back (t : Rat → Rat) (n : Nat) (s : State) : Nat → Nat → Rat
  | 0 => upd (fun _ => 0) (n - 1) (s.v (n - 1) / s.A (n - 1) (n - 1))
  | k + 1 =>
    upd (back t n s k) (n - 2 - k)
      ((s.v (n - 2 - k) - acc t (fun j => s.A (n - 2 - k) j * back t n s k j) (n - 1 - k) (k + 1)) / s.A (n - 2 - k) (n - 2 - k))

/-- the unknowns in their old order, ir/adt/gaussjordan.c:117-121 -/
def reorder (x : Nat → Nat) (y : Nat → Rat) : Nat → (Nat → Rat) → Nat → Rat
  | 0, v => v
  | i + 1, v => upd (reorder x y i v) (x i) (y i)

/-- `firm_gaussjordansolve`, ir/adt/gaussjordan.c:36-128 -/
def solve (t : Rat → Rat) (n : Nat) (A : Nat → Nat → Rat) (v : Nat → Rat) : Outcome :=
  if n = 0 then .outside
  else
    match triangle n (n - 1) 0 ⟨A, v, fun i => i⟩ with
    | none => .singular
    | some s => if s.A (n - 1) (n - 1) = 0 then .divZero else .solved (reorder s.x (back t n s (n - 1)) n s.v)

/-- `sum` is an `int`, ir/adt/gaussjordan.c:112: the fraction is cut off (numbers that do not fit are left out) -/
def toInt (q : Rat) : Rat := (q.num.tdiv q.den : Int)

end Verif.Model.GaussJordan
