import Verif.Spec.Linear
/-!
# Model: the sparse matrix of ir/adt/gaussseidel.c

Numbers are rational (no rounding of doubles).  The capacity of a row is left out: it grows with every new entry.
-/
namespace Verif.Model.GaussSeidel

/-- `row_col_t`, gaussseidel.c:14-19: the inverse of the diagonal, and the other entries in the order of the columns -/
structure Row where
  diag : Rat
  cols : List (Nat × Rat)

/-- `gs_matrix_t`, gaussseidel.c:21-25 -/
structure Matrix where
  size : Nat
  zeros : Nat
  rows : Nat → Row

/-- `gs_new_matrix`, gaussseidel.c:52-57 -/
def new (n : Nat) : Matrix := ⟨n, 0, fun _ => ⟨0, []⟩⟩

/-- the search for the column, gaussseidel.c:95-109; `c` is `(min+max)/2` throughout; `none`: the fuel is used up, or access outside of the row -/
def search (cols : List (Nat × Rat)) (col : Nat) : Nat → Nat → Nat → Option Nat
  | 0, _, _ => none
  | fuel + 1, lo, hi =>
    if lo < hi then
      match cols[(lo + hi) / 2]? with
      | none => none
      | some e =>
        if e.1 < col then search cols col fuel (max ((lo + hi) / 2) (lo + 1)) hi
        else if col < e.1 then search cols col fuel lo (min ((lo + hi) / 2) (hi - 1))
        else some ((lo + hi) / 2)
    else some ((lo + hi) / 2)

/-- whether the entry was found, gaussseidel.c:111-112 -/
def found (cols : List (Nat × Rat)) (col c : Nat) : Bool :=
  match cols[c]? with
  | none => false
  | some e => e.1 == col

/-- the entry is overwritten, gaussseidel.c:113, or inserted, 124-131 -/
def store (cols : List (Nat × Rat)) (col c : Nat) (v : Rat) : List (Nat × Rat) :=
  if found cols col c then cols.take c ++ (col, v) :: cols.drop (c + 1) else cols.take c ++ (col, v) :: cols.drop c

/-- `gs_matrix_set`, gaussseidel.c:81-137; `none`: a failed assertion -/
def set (m : Matrix) (r c : Nat) (v : Rat) : Option Matrix :=
  if r < m.size ∧ c < m.size then
    if r = c then
      if v = 0 then none else some { m with rows := fun i => if i = r then { m.rows r with diag := 1 / v } else m.rows i }
    else
      match search (m.rows r).cols c ((m.rows r).cols.length + 1) 0 (m.rows r).cols.length with
      | none => none
      | some p => some { m with
          rows := fun i => if i = r then { m.rows r with cols := store (m.rows r).cols c p v } else m.rows i
          zeros := if found (m.rows r).cols c p = true ∧ v = 0 then m.zeros + 1 else m.zeros }
  else none

/-- the loop of `gs_matrix_get`, gaussseidel.c:146-155 -/
def scan : List (Nat × Rat) → Nat → Rat
  | [], _ => 0
  | e :: l, c => if e.1 < c then scan l c else if c < e.1 then 0 else e.2

/-- `gs_matrix_get`, gaussseidel.c:139-156, with the row at hand -/
def getRow (row : Row) (r c : Nat) : Rat := if r = c then (if row.diag = 0 then 0 else 1 / row.diag) else scan row.cols c

def get (m : Matrix) (r c : Nat) : Rat := getRow (m.rows r) r c

/-- `gs_matrix_get_n_entries`, gaussseidel.c:70-79, modulo 2 to the 32 -/
def nEntries (m : Matrix) : Nat :=
  (((List.range m.size).map fun i => (m.rows i).cols.length + if (m.rows i).diag ≠ 0 then 1 else 0).sum + 2 ^ 32 - m.zeros) % 2 ^ 32

def upd (x : Nat → Rat) (i : Nat) (v : Rat) : Nat → Rat := fun j => if j = i then v else x j

/-- the new value of a row, gaussseidel.c:171-181 -/
def newValue (row : Row) (x : Nat → Rat) : Rat := -(row.cols.map fun e => e.2 * x e.1).sum * row.diag

def dist (a b : Rat) : Rat := if a - b < 0 then b - a else a - b

/-- `gs_matrix_gauss_seidel`, gaussseidel.c:165-188, the first `k` rows: the vector and the sum of the changes -/
def step (m : Matrix) (x : Nat → Rat) : Nat → (Nat → Rat) × Rat
  | 0 => (x, 0)
  | k + 1 =>
    let s := step m x k
    (upd s.1 k (newValue (m.rows k) s.1), s.2 + dist (s.1 k) (newValue (m.rows k) s.1))

end Verif.Model.GaussSeidel
