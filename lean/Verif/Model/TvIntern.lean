import Verif.Model.TarVal
import Verif.Model.LSet
/-!
# Model of the interning of integer target values, tv.c:55-103

The table is the linear hashing set of `ir/adt/set.c`.  An element is a copy of
the `ir_tarval` on the obstack of the set; the obstack never frees it, so every
new element gets an address not used before (`next`).  Modes are compared by
pointer; `register_mode` (irmode.c:124-140) guarantees one pointer per mode
record, so the model compares records.  The hash function depends on the address
of the mode and on the bytes; it is an arbitrary function of the two here.
-/
namespace Verif.Model

/-- an interned `ir_tarval`, with its address -/
structure TvCell where
  addr : Nat
  mode : Mode
  value : List Nat
  deriving DecidableEq, Repr

/-- `EQUAL(cmp_tv, ...)`, tv.c:60-69 and set.c:41-42: equal mode, equal length
and equal bytes. -/
def tvEqual (a b : TvCell) : Bool := decide (a.mode = b.mode) && decide (a.value = b.value)

/-- `hash_tv`, tv.c:55-58. -/
def tvHash (h : Mode → List Nat → Nat) (c : TvCell) : Nat := h c.mode c.value

/-- the table together with the next free address -/
structure TvTable where
  table : LSet TvCell
  next : Nat

/-- `init_tarval_1`, tv.c:1328-1334: `N_CONSTANTS` is 2048 (tv.c:43). -/
def TvTable.new : TvTable := ⟨LSet.new 2048, 0⟩

/-- `identify_tarval`, tv.c:71-76: returns the address. -/
def TvTable.identify (h : Mode → List Nat → Nat) (T : TvTable) (md : Mode) (v : List Nat) : Option (TvTable × Nat) :=
  (T.table.insert (tvHash h) tvEqual ⟨T.next, md, v⟩).map fun r => (⟨r.1, T.next + 1⟩, r.2.addr)

/-- `get_int_tarval`, tv.c:88-103, with the interning. -/
def TvTable.getInt (h : Mode → List Nat → Nat) (T : TvTable) (md : Mode) (v : List Nat) : Option (TvTable × Nat) :=
  match getIntTarval v md with
  | .int md v => T.identify h md v
  | _ => none

/-- a sequence of constructions -/
def TvTable.run (h : Mode → List Nat → Nat) : TvTable → List (Mode × List Nat) → Option (List Nat)
  | _, [] => some []
  | T, (md, v) :: rest => do
      let (T, a) ← T.getInt h md v
      let as ← TvTable.run h T rest
      pure (a :: as)

end Verif.Model
