import Verif.Spec.SsaGraph
/-!
# Specification: bits that matter
-/
namespace Verif.Spec

/-- two values agree in the bits of the mask -/
def AgreeOn {w : Nat} (care x y : BitVec w) : Prop := ∀ i, care.getLsbD i = true → x.getLsbD i = y.getLsbD i

/-- an execution with its history: for each block that was entered, the control flow node and the number of the control flow operand through which it was
entered, and the values the input nodes took -/
inductive SsaGraph.Run (G : SsaGraph) : List (Option (Nat × Nat) × Env) → Nat → PEnv → Prop
  | start {opq : Env} {ρ : PEnv} : (∀ m n v, ρ m n = some v → G.Computes (fun _ _ => none) opq G.start none m n v) → Run G [(none, opq)] G.start ρ
  | step {tr : List (Option (Nat × Nat) × Env)} {b b' x i : Nat} {opq : Env} {ρ ρ' : PEnv} : Run G tr b ρ → G.xblock x = b → G.Takes ρ x →
      (G.preds b')[i]? = some x → (∀ m n v, ρ' m n = some v → G.Computes ρ opq b' (some i) m n v) → Run G (tr ++ [(some (x, i), opq)]) b' ρ'

end Verif.Spec
