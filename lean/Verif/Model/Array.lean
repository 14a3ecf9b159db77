/-!
# Model of `ir/adt/array.c` and `include/libfirm/adt/array.h` (flexible arrays)

A flexible array is the list of its allocated cells and its length; a cell whose
contents are indeterminate (fresh memory) is `none`.  `size_t` has 64 bits.
`none` as a result = failed assertion, access outside of the allocated cells, or
a loop that does not end.  Byte sizes and the magic number are not modelled.
-/
namespace Verif.Model

/-- `ir_arr_descr`, array.h:39-44; `allocated` is `cells.length` -/
structure ArrF (α : Type) where
  cells : List (Option α)
  nelts : Nat
  deriving DecidableEq

variable {α : Type}

/-- `xrealloc` to `n` cells: the common prefix is kept, the rest is indeterminate -/
def reallocCells (cells : List (Option α)) (n : Nat) : List (Option α) :=
  cells.take n ++ List.replicate (n - cells.length) none

/-- `ir_verify_arr`, array.c:26-35 -/
def arrVerify (a : ArrF α) : Bool := a.nelts ≤ a.cells.length

/-- `ir_new_arr_f`, array.c:48-56 -/
def arrNew (n : Nat) : ArrF α := ⟨List.replicate n none, n⟩

/-- `ir_arr_setlen`, array.c:70-79 -/
def arrSetlen (a : ArrF α) (n : Nat) : Option (ArrF α) :=
  if arrVerify a then some ⟨reallocCells a.cells n, n⟩ else none

/-- `while (nelts > n) n <<= 1;`, array.c:90-91 -/
def arrGrow (nelts : Nat) : Nat → Nat → Option Nat
  | 0, n => if nelts > n then none else some n
  | fuel + 1, n => if nelts > n then arrGrow nelts fuel (n * 2 % 2 ^ 64) else some n

/-- `while (3*nelts < n) n >>= 1;`, array.c:92-93; `k` is `3*nelts` -/
def arrHalve (k : Nat) : Nat → Nat → Option Nat
  | 0, n => if k < n then none else some n
  | fuel + 1, n => if k < n then arrHalve k fuel (n / 2) else some n

/-- `ir_arr_resize`, array.c:81-103 -/
def arrResize (a : ArrF α) (nelts : Nat) : Option (ArrF α) := do
  if ¬ arrVerify a then none
  let n1 ← arrGrow nelts 64 (max 1 a.cells.length)
  let n ← arrHalve (3 * nelts % 2 ^ 64) 64 n1
  if ¬ nelts ≤ n then none
  pure ⟨if n ≠ a.cells.length then reallocCells a.cells n else a.cells, nelts⟩

/-- `ARR_SHRINKLEN`, array.h:111-118 -/
def arrShrinklen (a : ArrF α) (n : Nat) : Option (ArrF α) :=
  if ¬ arrVerify a then none else if ¬ n ≤ a.nelts then none else some ⟨a.cells, n⟩

/-- `arr[i] = x` -/
def arrStore (a : ArrF α) (i : Nat) (x : α) : Option (ArrF α) :=
  if i < a.cells.length then some ⟨a.cells.set i (some x), a.nelts⟩ else none

/-- `ARR_EXTEND`, array.h:251-252 -/
def arrExtend (a : ArrF α) (delta : Nat) : Option (ArrF α) :=
  if ¬ arrVerify a then none else arrResize a ((a.nelts + delta) % 2 ^ 64)

/-- `ARR_EXTO`, array.h:264-267 -/
def arrExto (a : ArrF α) (n : Nat) : Option (ArrF α) :=
  if ¬ arrVerify a then none else if n ≥ a.nelts then arrResize a ((n + 1) % 2 ^ 64) else some a

/-- `ARR_APP1`, array.h:276-277 -/
def arrApp1 (a : ArrF α) (x : α) : Option (ArrF α) := do
  let b ← arrExtend a 1
  if ¬ arrVerify b then none
  arrStore b (b.nelts - 1) x

end Verif.Model
