import Verif.Spec.TailRec
/-!
# Model: elimination of tail recursion

ir/opt/tailrec.c: a Return behind a call of the function itself becomes a jump to the begin of the
function.  If something is added to the result of the call, or it is multiplied, the sum or product is
kept in a new variable.

Left out: the check that no address of a local variable escapes, the types of calls, exceptions, and the
construction of the Phi nodes: parameters, memory and the new variables have the value assigned last.
-/
namespace Verif.Model.TailRec
open Verif.Spec.TailRec

/-- `tail_rec_variants` (ir/opt/tailrec.c:32-39) -/
inductive Variant where
  | direct | add | mul | bad | unknown
  deriving DecidableEq, Repr

/-- The variant of two operands together (ir/opt/tailrec.c:365-368, 422-425). -/
def join (va vb : Variant) : Variant :=
  if va = vb then va else if va = .unknown then vb else if vb = .unknown then va else .bad

/-- `find_variant` (ir/opt/tailrec.c:334-447) -/
def findVariant : Expr → Variant
  | .call => .direct
  | .add _ a b =>
    let va := if !a.inBlock then .unknown else findVariant a
    if va = .bad then .bad
    else
      let vb := if !b.inBlock then .unknown else findVariant b
      if vb = .bad then .bad
      else if join va vb = .direct ∨ join va vb = .add then .add else .bad
  | .sub _ a b =>
    let va := if !a.inBlock then .unknown else findVariant a
    if va = .bad then .bad
    else if b.inBlock && findVariant b ≠ .unknown then .bad
    else if va = .direct ∨ va = .add then va else .bad
  | .mul _ a b =>
    let va := if !a.inBlock then .unknown else findVariant a
    if va = .bad then .bad
    else
      let vb := if !b.inBlock then .unknown else findVariant b
      if vb = .bad then .bad
      else if join va vb = .direct ∨ join va vb = .mul then .mul else .bad
  | .neg _ a =>
    let res := findVariant a
    if res = .direct then .mul else if res = .mul ∨ res = .unknown then res else .bad
  | .leaf _ _ => .unknown
  | .other _ _ _ _ => .unknown

/-- The loop over the values of a Return (ir/opt/tailrec.c:548-566): the variants afterwards, and whether
all values fit. -/
def checkValues {n : Nat} (es : Fin n → Expr) : List (Fin n) → (Fin n → Variant) → (Fin n → Variant) × Bool
  | [], vs => (vs, true)
  | j :: js, vs =>
    let var := findVariant (es j)
    if var = .bad ∨ var = .unknown then (vs, false)
    else
      let vs' := if var ≠ .direct ∧ vs j = .direct then fun k => if k = j then var else vs k else vs
      let var' := if var = .direct then vs j else var
      if vs' j ≠ var' then (vs', false) else checkValues es js vs'

/-- `find_tail_rec_possibilities` (ir/opt/tailrec.c:488-582): the Returns behind calls, in the order they
are looked at; the variants and the Returns that can be transformed. -/
def possibilities {n : Nat} (exprs : Nat → Fin n → Expr) : List Nat → (Fin n → Variant) → List Nat →
    (Fin n → Variant) × List Nat
  | [], vs, acc => (vs, acc)
  | i :: is, vs, acc =>
    let (vs', ok) := checkValues (exprs i) (List.finRange n).reverse vs
    possibilities exprs is vs' (if ok then i :: acc else acc)

/-- all variants are direct at first (ir/opt/tailrec.c:499-503) -/
def findPossibilities {n : Nat} (exprs : Nat → Fin n → Expr) (sites : List Nat) : (Fin n → Variant) × List Nat :=
  possibilities exprs sites (fun _ => .direct) []

/-- The neutral elements (ir/opt/tailrec.c:193-205); a variable that is not needed has some value. -/
def neutral {α : Type} {n : Nat} (O : Ops α) (vs : Fin n → Variant) : Fin n → α := fun j =>
  match vs j with
  | .mul => O.one
  | _ => O.zero

/-- The results of the call are the variables, the values of the Return are assigned to them
(ir/opt/tailrec.c:207-249). -/
def assign {α : Type} {n : Nat} (O : Ops α) (vs : Fin n → Variant) (es : Fin n → Expr) (env : Nat → α)
    (acc : Fin n → α) : Fin n → α := fun j =>
  if vs j = .direct then acc j else (es j).eval O env (acc j)

/-- The other Returns (ir/opt/tailrec.c:251-290) -/
def finish {α : Type} {n : Nat} (O : Ops α) (vs : Fin n → Variant) (acc res : Fin n → α) : Fin n → α := fun j =>
  match vs j with
  | .add => O.add (res j) (acc j)
  | .mul => O.mul (acc j) (res j)
  | _ => res j

/-- What the graph built by `do_opt_tail_rec` (ir/opt/tailrec.c:58-301) does: `good` are the transformed
Returns, `acc` the new variables. -/
inductive RunT {α P M : Type} {n : Nat} (O : Ops α) (f : Func α P M n) (vs : Fin n → Variant) (good : List Nat) :
    (Fin n → α) → Code α P M n → (Fin n → α) → M → Prop
  | ret (acc res : Fin n → α) (m : M) : RunT O f vs good acc (.ret res m) (finish O vs acc res) m
  | loop {acc : Fin n → α} {i : Nat} {args : P} {env : Nat → α} {m m' : M} {res : Fin n → α} :
      i ∈ good → RunT O f vs good (assign O vs (f.exprs i) env acc) (f.body args m) res m' →
      RunT O f vs good acc (.tail i args env m) res m'
  | call {acc : Fin n → α} {i : Nat} {args : P} {env : Nat → α} {m m' : M} {rs : Fin n → α} :
      i ∉ good → RunT O f vs good (neutral O vs) (f.body args m) rs m' →
      RunT O f vs good acc (.tail i args env m) (finish O vs acc fun j => (f.exprs i j).eval O env (rs j)) m'
  | rcall {acc : Fin n → α} {args : P} {m m' m'' : M} {k : (Fin n → α) → M → Code α P M n} {rs res : Fin n → α} :
      RunT O f vs good (neutral O vs) (f.body args m) rs m' → RunT O f vs good acc (k rs m') res m'' →
      RunT O f vs good acc (.rcall args m k) res m''

/-- The transformed function; without a Return that can be transformed nothing is changed
(ir/opt/tailrec.c:584-612). -/
def RunOpt {α P M : Type} {n : Nat} (O : Ops α) (f : Func α P M n) (sites : List Nat) (c : Code α P M n)
    (res : Fin n → α) (m : M) : Prop :=
  let p := findPossibilities f.exprs sites
  if p.2 = [] then Run O f c res m else RunT O f p.1 p.2 (neutral O p.1) c res m

end Verif.Model.TailRec
