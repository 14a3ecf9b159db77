/-!
# Model of `default_layout_compound_type` (`ir/tr/type.c`)

`unsigned` has 32 bits; its arithmetic wraps.
-/
namespace Verif.Model.Layout

/-- what `default_layout_compound_type` reads of a member -/
structure Member where
  /-- `is_Method_type(entity_type)` -/
  isMethod : Bool
  /-- `is_Array_type(entity_type) && get_array_size(entity_type) == 0` -/
  flexible : Bool
  /-- `get_type_size(entity_type)` -/
  size : Nat
  /-- `get_type_alignment(entity_type)` -/
  align : Nat
  deriving DecidableEq

/-- unsigned addition -/
def uadd (a b : Nat) : Nat := (a + b) % 2 ^ 32

/-- rounding up as in ir/tr/type.c:929-931 and 939-941 -/
def alignUp (size align : Nat) : Nat :=
  if size % align ≠ 0 then uadd size (align - size % align) else size

/-- size of the member, ir/tr/type.c:912-918; `last` is `i + 1 == n` -/
def entitySize (last : Bool) (m : Member) : Nat := if last && m.flexible then 0 else m.size

/-- the loop of `default_layout_compound_type`, ir/tr/type.c:901-936: the offsets assigned (none for methods), size and alignment -/
def layoutLoop (isUnion : Bool) : List Member → Nat → Nat → List (Option Nat) × Nat × Nat
  | [], size, alignAll => ([], size, alignAll)
  | m :: ms, size, alignAll =>
    if m.isMethod then
      let r := layoutLoop isUnion ms size alignAll
      (none :: r.1, r.2)
    else
      let es := entitySize ms.isEmpty m
      let alignAll' := max m.align alignAll
      if isUnion then
        let r := layoutLoop isUnion ms (max size es) alignAll'
        (some 0 :: r.1, r.2)
      else
        let off := if m.align ≠ 0 then alignUp size m.align else size
        let r := layoutLoop isUnion ms (uadd off es) alignAll'
        (some off :: r.1, r.2)

/-- the result: offsets, `set_type_size`, `set_type_alignment` -/
structure Result where
  offsets : List (Option Nat)
  size : Nat
  align : Nat
  deriving DecidableEq

/-- `default_layout_compound_type`, ir/tr/type.c:898-945; bit-field members (line 908) panic and are not modelled -/
def layout (isUnion : Bool) (ms : List Member) : Result :=
  let r := layoutLoop isUnion ms 0 1
  ⟨r.1, alignUp r.2.1 r.2.2, r.2.2⟩

end Verif.Model.Layout
