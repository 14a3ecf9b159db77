import Verif.Spec.Expr
/-!
# Specification: graphs in SSA form and their executions

A graph has blocks, control flow edges between them and data nodes.  An execution goes from block to block; when it enters a block, the Phi
nodes of the block take the values their operands for the used edge had before, then the other nodes of the block are evaluated, and the
values of the nodes of all other blocks stay as they are.  Nothing here refers to the model.
-/
namespace Verif.Spec

/-- a data node of mode `m` -/
inductive NodeDef (m : IMode)
  /-- an operation; the leaves of the expression are the nodes it uses -/
  | op (e : Expr m)
  /-- one operand of the same mode for each control flow operand of the block -/
  | phi (args : List Nat)
  /-- a parameter, the result of a load or of a call, … -/
  | input

/-- a control flow node -/
inductive XDef
  /-- an unconditional jump -/
  | jmp
  /-- the edge of a Cond that is taken if the selector is `num` -/
  | cond (sel : Nat) (num : Bool)
  /-- an edge of a Switch whose selector has mode `k` -/
  | switch (k : IMode) (sel : Nat)
  /-- a jump that may or may not be taken: exceptions, returns, … -/
  | other
  /-- a jump that was removed -/
  | bad

/-- data nodes are numbered separately for each mode -/
structure SsaGraph where
  node : (m : IMode) → Nat → NodeDef m
  blockOf : (m : IMode) → Nat → Nat
  /-- the control flow nodes that lead to a block -/
  preds : Nat → List Nat
  xdef : Nat → XDef
  /-- the block a control flow node is in -/
  xblock : Nat → Nat
  start : Nat

/-- the values the data nodes have; nodes that were not evaluated yet, and nodes whose evaluation has undefined behaviour have none -/
abbrev PEnv := (m : IMode) → Nat → Option (BitVec m.bits)

/-- Block `b` is entered through its control flow operand `i` with the values `ρ`, and `opq` are the values input nodes of the block
take: the value of a node afterwards. -/
inductive SsaGraph.Computes (G : SsaGraph) (ρ : PEnv) (opq : Env) (b : Nat) (i : Option Nat) : (m : IMode) → Nat → BitVec m.bits → Prop
  | keep {m : IMode} {n : Nat} {v : BitVec m.bits} : G.blockOf m n ≠ b → ρ m n = some v → Computes G ρ opq b i m n v
  | input {m : IMode} {n : Nat} : G.blockOf m n = b → G.node m n = .input → Computes G ρ opq b i m n (opq m n)
  | phi {m : IMode} {n j a : Nat} {args : List Nat} {v : BitVec m.bits} : G.blockOf m n = b → G.node m n = .phi args → i = some j →
      args[j]? = some a → ρ m a = some v → Computes G ρ opq b i m n v
  | op {m : IMode} {n : Nat} {e : Expr m} {env : Env} : G.blockOf m n = b → G.node m n = .op e →
      (∀ k j, e.Uses k j → Computes G ρ opq b i k j (env k j)) → e.Ok env → Computes G ρ opq b i m n (e.eval env)

/-- control may leave through the control flow node `x` when the data nodes have the values `ρ` -/
def SsaGraph.Takes (G : SsaGraph) (ρ : PEnv) (x : Nat) : Prop :=
  match G.xdef x with
  | .jmp => True
  | .cond sel num => ∃ v, ρ bmode sel = some v ∧ (v = 1#1 ↔ num = true)
  | .switch k sel => ∃ v, ρ k sel = some v
  | .other => True
  | .bad => False

/-- control is in block `b`, and the data nodes have the values `ρ` -/
inductive SsaGraph.Reaches (G : SsaGraph) : Nat → PEnv → Prop
  | start {opq : Env} {ρ : PEnv} : (∀ m n v, ρ m n = some v → G.Computes (fun _ _ => none) opq G.start none m n v) → Reaches G G.start ρ
  | step {b b' x i : Nat} {opq : Env} {ρ ρ' : PEnv} : Reaches G b ρ → G.xblock x = b → G.Takes ρ x → (G.preds b')[i]? = some x →
      (∀ m n v, ρ' m n = some v → G.Computes ρ opq b' (some i) m n v) → Reaches G b' ρ'

/-- block `b` is entered through its control flow operand `i` while the data nodes have the values `ρ` -/
inductive SsaGraph.Enters (G : SsaGraph) : PEnv → Nat → Option Nat → Prop
  | start : Enters G (fun _ _ => none) G.start none
  | step {b b' x i : Nat} {ρ : PEnv} : G.Reaches b ρ → G.xblock x = b → G.Takes ρ x → (G.preds b')[i]? = some x → Enters G ρ b' (some i)

/-- the node has the value `v` at some time of some execution -/
def SsaGraph.Occurs (G : SsaGraph) (m : IMode) (n : Nat) (v : BitVec m.bits) : Prop :=
  ∃ ρ b i opq, G.Enters ρ b i ∧ G.Computes ρ opq b i m n v

end Verif.Spec
