/-!
# Specification: what a function returns

Blocks and nodes are numbers.  A path is the list of blocks with the edges by which they are entered, the last one first; it begins in the start block 0.
-/
namespace Verif.Spec.Returns

structure Graph where
  /-- the edges into a block: the block they come from, and whether it ends with a Jmp, that is, has no other edge; `none` is Bad -/
  preds : Nat → List (Option (Nat × Bool))
  blk : Nat → Nat
  /-- the operands of a Phi, by the number of the edge -/
  phi : Nat → Option (Nat → Nat)
  label : Nat → Bool

abbrev Path := List (Nat × Nat)

def endOf : Path → Nat
  | [] => 0
  | s :: _ => s.1

/-- a path along the edges of the graph -/
def Valid (g : Graph) : Path → Prop
  | [] => True
  | (b, i) :: π => (∃ j, (g.preds b)[i]? = some (some (endOf π, j))) ∧ Valid g π

variable {V : Type}

/-- all Phis of the block get the value of their operand at once -/
def enter (g : Graph) (b i : Nat) (σ : Nat → V) : Nat → V := fun n =>
  match g.phi n with
  | none => σ n
  | some f => if g.blk n = b then σ (f i) else σ n

/-- what a block computes: only its own nodes, and no Phis -/
def IsBody (g : Graph) (body : Nat → (Nat → V) → Nat → V) : Prop := ∀ b σ n, g.blk n ≠ b ∨ (g.phi n).isSome = true → body b σ n = σ n

/-- the values of the nodes at the end of a path -/
def eval (g : Graph) (body : Nat → (Nat → V) → Nat → V) (σ : Nat → V) : Path → Nat → V
  | [] => σ
  | (b, i) :: π => body b (enter g b i (eval g body σ π))

/-- where a Return is: in a block, or in a new block on an edge -/
inductive Pos
  | block (b : Nat)
  | edge (b i : Nat)

structure Ret where
  pos : Pos
  ops : List Nat

/-- control is there after the path -/
def Arrives (g : Graph) (π : Path) : Pos → Prop
  | .block b => endOf π = b
  | .edge b i => Valid g ((b, i) :: π)

/-- who is at this place after the first path, goes on to the end of the second one in any case -/
inductive Forced (g : Graph) : Path → Pos → Path → Prop
  | here (π) : Forced g π (.block (endOf π)) π
  | edge {b i π ρ} : Forced g ((b, i) :: π) (.block b) ρ → Forced g π (.edge b i) ρ
  | jmp {b i π ρ} : (g.preds b)[i]? = some (some (endOf π, true)) → Forced g ((b, i) :: π) (.block b) ρ → Forced g π (.block (endOf π)) ρ

/-- the Returns `new` instead of `old`: whatever is returned by an old one is returned by a new one on the same way, and the other way round -/
structure SameReturns (g : Graph) (body : Nat → (Nat → V) → Nat → V) (σ : Nat → V) (old new : List Ret) : Prop where
  kept : ∀ π, Valid g π → ∀ r ∈ old, r.pos = .block (endOf π) →
    ∃ π', ∃ r' ∈ new, Valid g π' ∧ Forced g π' r'.pos π ∧ r'.ops.map (eval g body σ π') = r.ops.map (eval g body σ π)
  noNew : ∀ π', Valid g π' → ∀ r' ∈ new, Arrives g π' r'.pos →
    ∃ π, ∃ r ∈ old, Valid g π ∧ Forced g π' r'.pos π ∧ r.pos = .block (endOf π) ∧ r'.ops.map (eval g body σ π') = r.ops.map (eval g body σ π)

/-- a Return in a block without label with at least two predecessors, where nothing it returns is computed -/
def Movable (g : Graph) (r : Ret) : Prop :=
  ∃ b, r.pos = .block b ∧ (∀ o ∈ r.ops, g.phi o ≠ none ∨ g.blk o ≠ b) ∧ 2 ≤ (g.preds b).length ∧ g.label b = false

end Verif.Spec.Returns
