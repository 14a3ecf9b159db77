import Verif.Spec.Returns
/-!
# Model: one Return or many

ir/opt/return.c.  The other predecessors of the end block (they stay), Bads among them (they go), labels of debugging, keep-alives and the properties of the
graph are left out.  A Jmp that is replaced by Bad is not looked at again: its block has no other edge.  `none`: the fuel is used up.
-/
namespace Verif.Model.Returns

open Verif.Spec.Returns

/-- `can_move_ret`, ir/opt/return.c:151-180; in the new block on an edge there is one predecessor only -/
def canMove (g : Graph) (r : Ret) : Bool :=
  match r.pos with
  | .edge _ _ => false
  | .block b => r.ops.all (fun o => (g.phi o).isSome || decide (g.blk o ≠ b)) && decide (1 < (g.preds b).length) && !g.label b

/-- an operand of the new Return, ir/opt/return.c:265-270 -/
def operand (g : Graph) (b i o : Nat) : Nat :=
  match g.phi o with
  | none => o
  | some f => if g.blk o = b then f i else o

/-- the new Return for the edge `i`, ir/opt/return.c:258-273; if the edge is no Jmp there is a new block on it, 171-177 -/
def moved (g : Graph) (b i : Nat) (ops : List Nat) : Option (Nat × Bool) → Option Ret
  | none => none
  | some (src, jmp) => some ⟨if jmp then .block src else .edge b i, ops.map (operand g b i)⟩

/-- on the list or final, ir/opt/return.c:215-232, 282-290 -/
def place (g : Graph) (s : List Ret × List Ret) (r : Ret) : List Ret × List Ret := if canMove g r then (r :: s.1, s.2) else (s.1, r :: s.2)

/-- the edges of a block one after the other, ir/opt/return.c:257-295 -/
def expand (g : Graph) (b : Nat) (ops : List Nat) : List (Option (Nat × Bool)) → Nat → List Ret × List Ret → List Ret × List Ret
  | [], _, s => s
  | e :: es, i, s => expand g b ops es (i + 1) (match moved g b i ops e with | none => s | some r => place g s r)

/-- the list, ir/opt/return.c:248-306 -/
def loop (g : Graph) : Nat → List Ret × List Ret → Option (List Ret)
  | _, ([], fin) => some fin
  | 0, (_ :: _, _) => none
  | fuel + 1, (r :: l, fin) =>
    match r.pos with
    | .edge _ _ => none
    | .block b => loop g fuel (expand g b r.ops (g.preds b) 0 (l, fin))

/-- `normalize_n_returns`, ir/opt/return.c:202-328 -/
def nReturns (g : Graph) (fuel : Nat) (rets : List Ret) : Option (List Ret) :=
  let s := rets.foldl (place g) ([], [])
  match s.1 with
  | [] => some rets
  | _ :: _ => loop g fuel s

def upd {α : Type} (f : Nat → α) (k : Nat) (v : α) : Nat → α := fun x => if x = k then v else f x

/-- the values of one Return, ir/opt/return.c:100-101 -/
def saveOne (n j : Nat) (ops : Nat → Nat) : Nat → (Nat → Nat) → (Nat → Nat)
  | 0, a => a
  | k + 1, a => upd (saveOne n j ops k a) (j + k * n) (ops k)

/-- `retvals`, ir/opt/return.c:91-107: `n` Returns with `m` values each, `ops j k` is value `k` of Return `j` -/
def save (n m : Nat) (ops : Nat → Nat → Nat) : Nat → Nat → Nat
  | 0 => fun _ => 0
  | j + 1 => saveOne n j (ops j) m (save n m ops j)

/-- the Phis of the new block, ir/opt/return.c:113-116: operand `j` of Phi `k` -/
def onePhi (n m : Nat) (ops : Nat → Nat → Nat) (k j : Nat) : Nat := save n m ops n (k * n + j)

end Verif.Model.Returns
