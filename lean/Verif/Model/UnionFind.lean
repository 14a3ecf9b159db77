/-!
# Model of `include/libfirm/adt/unionfind.h`

`data` is a list of `int`s.  `none` = access outside of the array, failed
assertion, signed overflow, or a loop that does not end within as many steps as
there are elements.
-/
namespace Verif.Model

/-- `uf_init`, unionfind.h:35-40 -/
def ufInit (n : Nat) : List Int := List.replicate n (-1)

/-- first loop of `uf_find`, unionfind.h:87-89 -/
def ufRepr (data : List Int) : Nat → Nat → Option Nat
  | 0, _ => none
  | fuel + 1, repr =>
      match data[repr]? with
      | none => none
      | some d => if d ≥ 0 then ufRepr data fuel d.toNat else some repr

/-- second loop of `uf_find` (path compression), unionfind.h:92-97 -/
def ufCompress (repr : Nat) : Nat → List Int → Nat → Option (List Int)
  | 0, data, t => if t = repr then some data else none
  | fuel + 1, data, t =>
      if t = repr then some data
      else
        match data[t]? with
        | none => none
        | some next => if next < 0 then none else ufCompress repr fuel (data.set t repr) next.toNat

/-- `uf_find`, unionfind.h:83-100: new data and representative. -/
def ufFind (data : List Int) (e : Nat) : Option (List Int × Nat) := do
  let repr ← ufRepr data data.length e
  let data' ← ufCompress repr data.length data e
  pure (data', repr)

/-- `uf_union`, unionfind.h:51-71 -/
def ufUnion (data : List Int) (set1 set2 : Nat) : Option (List Int × Nat) :=
  if set1 = set2 then some (data, set1)
  else
    match data[set1]?, data[set2]? with
    | some d1, some d2 =>
        if ¬ (d1 < 0 ∧ d2 < 0) then none
        else if d1 + d2 < -2 ^ 31 then none
        else if d1 > d2 then some ((data.set set1 set2).set set2 (d1 + d2), set2)
        else some ((data.set set2 set1).set set1 (d1 + d2), set1)
    | _, _ => none

end Verif.Model
