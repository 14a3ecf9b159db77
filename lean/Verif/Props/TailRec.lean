import Verif.Lemmas.TailRec
import Verif.Model.FltCalc
/-! # C116: elimination of tail recursion -/
namespace Verif.Props.TailRec
open Verif.Spec.TailRec Verif.Model.TailRec Verif.Lemmas.TailRec

/-- C116: The function with a loop returns what the recursive function returns, for every body, every number of
results and every width of the integers, and it ends where the recursive function ends.  Missing: values of
transformed Returns that use the result of the call twice or not in the operations looked at, and those that
subtract from the bare result, where the transformed function is wrong (see `twice_is_wrong`, `other_is_wrong`,
`sub_is_wrong`), and floating point numbers (`float_is_wrong`); the addresses of local variables. -/
theorem tail_recursion_correct_partial {w : Nat} {oth : Nat → BitVec w → BitVec w → BitVec w} {P M : Type} {n : Nat}
    (f : Func (BitVec w) P M n) (sites : List Nat)
    (hg : ∀ i ∈ (findPossibilities f.exprs sites).2, ∀ j,
      (f.exprs i j).uses = 1 ∧ (f.exprs i j).Placed ∧ (f.exprs i j).Clean = true)
    (args : P) (m : M) (res : Fin n → BitVec w) (m' : M) :
    RunOpt (intOps w oth) f sites (f.body args m) res m' ↔ Run (intOps w oth) f (f.body args m) res m' := by
  unfold RunOpt
  obtain ⟨hv, hf⟩ := possibilities_ok (exprs := f.exprs) sites (fun _ => .direct) []
    (fun j h => by rcases h with h | h <;> cases h) (fun _ h => nomatch h)
  change (∀ j, ¬None ((findPossibilities f.exprs sites).1 j)) at hv
  change (∀ i ∈ (findPossibilities f.exprs sites).2, ∀ j, Fits (f.exprs i) (findPossibilities f.exprs sites).1 j) at hf
  dsimp only
  by_cases he : (findPossibilities f.exprs sites).2 = []
  · rw [if_pos he]
  · rw [if_neg he]
    constructor
    · intro h
      obtain ⟨rs, h1, h2⟩ := run_of_runT hf hv hg h
      rw [finish_neutral] at h2
      exact h2 ▸ h1
    · intro h
      have := runT_of_run hf hv hg h (neutral (intOps w oth) (findPossibilities f.exprs sites).1)
      rwa [finish_neutral] at this

/-- The variants are right for Returns that use the result once: the value is the result plus or times
something the result does not change. -/
theorem variants_sound_partial {w : Nat} {oth : Nat → BitVec w → BitVec w → BitVec w} {e : Expr} (hu : e.uses = 1)
    (hp : e.Placed) (hc : e.Clean = true) (env : Nat → BitVec w) :
    (findVariant e = .direct → ∀ r, e.eval (intOps w oth) env r = r) ∧
    (findVariant e = .add → ∃ c, ∀ r, e.eval (intOps w oth) env r = r + c) ∧
    (findVariant e = .mul → ∃ c, ∀ r, e.eval (intOps w oth) env r = c * r) := by
  refine ⟨fun h r => ?_, fun h => (variant_sound hu hp env).1 (.inr hc) (.inr h), (variant_sound hu hp env).2 hc⟩
  rw [call_of_direct h hc]
  rfl

/-- Returns without the result of the call are not transformed. -/
theorem unused_result_kept {n : Nat} {exprs : Nat → Fin n → Expr} {sites : List Nat} {i : Nat}
    (h : i ∈ (findPossibilities exprs sites).2) (j : Fin n) : (exprs i j).uses ≠ 0 := by
  intro h0
  have := (possibilities_ok (exprs := exprs) sites (fun _ => .direct) []
    (fun j h => by rcases h with h | h <;> cases h) (fun _ h => nomatch h)).2 i h j
  rcases none_of_unused h0 with h' | h'
  · exact this.1 h'
  · exact this.2.1 h'

/-! ### Cases that meet the hypotheses -/

/-- `f(n) = n = 0 ? 1 : n * f(n - 1)` -/
def fact : Func (BitVec 32) Nat Unit 1 where
  body p m := if p = 0 then .ret (fun _ => 1) m else .tail 0 (p - 1) (fun _ => BitVec.ofNat 32 p) m
  exprs _ _ := .mul true (.leaf false 0) .call

example : (findPossibilities fact.exprs [0]).2 = [0] := by decide
example : (findPossibilities fact.exprs [0]).1 0 = .mul := by decide
example : ∀ i ∈ (findPossibilities fact.exprs [0]).2, ∀ j,
    (fact.exprs i j).uses = 1 ∧ (fact.exprs i j).Placed ∧ (fact.exprs i j).Clean = true := by
  intro i _ j
  simp [fact, Expr.uses, Expr.Placed, Expr.Clean]

/-- two results, one with an addition and a subtraction below it, and a Return with the bare results -/
def pair : Nat → Fin 2 → Expr := fun i j =>
  if i = 0 then (if j = 0 then .add true (.sub true .call (.leaf true 0)) (.leaf true 1) else .neg true (.mul true .call (.leaf true 1)))
  else .call

example : (findPossibilities pair [1, 0]).2 = [0, 1] := by decide
example : ((findPossibilities pair [1, 0]).1 0, (findPossibilities pair [1, 0]).1 1) = (.add, .mul) := by decide

/-! ### Where the transformed function is wrong -/

/-- Operands that use the result of the call in different ways are not combined: the Return is kept. -/
theorem different_uses_kept {a b : Expr} (ha : a.inBlock = true) (hb : b.inBlock = true) (hna : findVariant a ≠ .unknown)
    (hnb : findVariant b ≠ .unknown) (hne : findVariant a ≠ findVariant b) (k : Bool) :
    findVariant (.add k a b) = .bad ∧ findVariant (.mul k a b) = .bad := by
  have hj : join (findVariant a) (findVariant b) = .bad := by
    unfold join
    rw [if_neg hne, if_neg hna, if_neg hnb]
  constructor
  · rw [findVariant, ha, hb]
    simp only [Bool.not_true, Bool.false_eq_true, if_false, hj]
    split
    · rfl
    · split <;> simp
  · rw [findVariant, ha, hb]
    simp only [Bool.not_true, Bool.false_eq_true, if_false, hj]
    split
    · rfl
    · split <;> simp

/-- `f(n - 1) + 2 * f(n - 1)` -/
example : findVariant (.add true .call (.mul true (.leaf true 0) .call)) = .bad := by decide

/-- A function of one result that calls itself until its argument is zero. -/
def once {α : Type} (e : Expr) (base : α) (env : Nat → α) : Func α Nat Unit 1 where
  body p m := if p = 0 then .ret (fun _ => base) m else .tail 0 (p - 1) env m
  exprs _ _ := e

theorem once_run {α : Type} {O : Ops α} {e : Expr} {base : α} {env : Nat → α} : ∀ {p : Nat} {res : Fin 1 → α} {m : Unit},
    Run O (once e base env) ((once e base env).body p ()) res m → res 0 = Nat.repeat (fun r => e.eval O env r) p base := by
  intro p
  induction p with
  | zero =>
    intro res m h
    change Run O _ (.ret (fun _ => base) ()) res m at h
    cases h
    rfl
  | succ p ih =>
    intro res m h
    change Run O (once e base env) (.tail 0 p env ()) res m at h
    cases h with
    | tail h =>
      have := ih h
      simp only [Nat.repeat]
      rw [← this]
      rfl

theorem once_opt {α : Type} {O : Ops α} {e : Expr} {base : α} {env : Nat → α} {v : Variant}
    (hp : findPossibilities (once e base env).exprs [0] = (fun _ => v, [0])) : ∀ p : Nat,
    RunOpt O (once e base env) [0] ((once e base env).body p ())
      (finish O (fun _ => v) (Nat.repeat (assign O (fun _ => v) (fun _ => e) env) p (neutral O fun _ => v)) fun _ => base) () := by
  intro p
  unfold RunOpt
  dsimp only
  rw [hp, if_neg (by simp)]
  dsimp only
  have hcomm : ∀ (g : (Fin 1 → α) → (Fin 1 → α)) (k : Nat) (x : Fin 1 → α), Nat.repeat g k (g x) = g (Nat.repeat g k x) := by
    intro g k
    induction k with
    | zero => intro x; rfl
    | succ k ih => intro x; simp only [Nat.repeat]; rw [ih]
  generalize neutral O (fun _ : Fin 1 => v) = acc
  induction p generalizing acc with
  | zero => exact .ret _ _ _
  | succ p ih =>
    have := ih (assign O (fun _ => v) (fun _ => e) env acc)
    rw [hcomm] at this
    refine RunT.loop (List.mem_singleton.mpr rfl) ?_
    exact this

theorem refute {α : Type} {O : Ops α} {e : Expr} {base : α} {env : Nat → α} {v : Variant} {p : Nat}
    (hp : findPossibilities (once e base env).exprs [0] = (fun _ => v, [0]))
    (hne : finish O (fun _ => v) (Nat.repeat (assign O (fun _ => v) (fun _ => e) env) p (neutral O fun _ => v)) (fun _ => base) (0 : Fin 1) ≠
      Nat.repeat (fun r => e.eval O env r) p base) :
    ¬∀ args m res m', RunOpt O (once e base env) [0] ((once e base env).body args m) res m' ↔
      Run O (once e base env) ((once e base env).body args m) res m' := by
  intro h
  exact hne (once_run ((h p () _ ()).mp (once_opt hp p)))

theorem fin1 {α : Type} {x y : (Fin 1 → α) × List Nat} (h : x.1 0 = y.1 0) (h' : x.2 = y.2) : x = y := by
  obtain ⟨a, b⟩ := x
  obtain ⟨c, d⟩ := y
  simp only at h h'
  rw [h', show a = c from funext fun j => by rw [show j = 0 from Subsingleton.elim _ _, h]]

/-- C116 fails for `return f(n - 1) - 3`: the subtraction is forgotten. -/
theorem sub_is_wrong {oth : Nat → BitVec 32 → BitVec 32 → BitVec 32} : ∃ (e : Expr) (base : BitVec 32) (env : Nat → BitVec 32),
    e.uses = 1 ∧ e.Placed ∧ ¬∀ args m res m', RunOpt (intOps 32 oth) (once e base env) [0] ((once e base env).body args m) res m' ↔
      Run (intOps 32 oth) (once e base env) ((once e base env).body args m) res m' := by
  refine ⟨.sub true .call (.leaf true 0), 5, fun _ => 3, by decide, by simp [Expr.Placed, Expr.uses], ?_⟩
  refine refute (v := .direct) (p := 1) (fin1 (by decide) (by decide)) ?_
  change (5 : BitVec 32) ≠ 5 - 3
  decide

/-- C116 fails for `return f(n - 1) * f'`, where `f'` is the result of the same call. -/
theorem twice_is_wrong {oth : Nat → BitVec 32 → BitVec 32 → BitVec 32} : ∃ (e : Expr) (base : BitVec 32) (env : Nat → BitVec 32),
    e.Clean = true ∧ e.Placed ∧ ¬∀ args m res m', RunOpt (intOps 32 oth) (once e base env) [0] ((once e base env).body args m) res m' ↔
      Run (intOps 32 oth) (once e base env) ((once e base env).body args m) res m' := by
  refine ⟨.mul true .call .call, 5, fun _ => 3, by decide, by simp [Expr.Placed], ?_⟩
  refine refute (v := .mul) (p := 1) (fin1 (by decide) (by decide)) ?_
  change (1 * 1 : BitVec 32) * 5 ≠ 5 * 5
  decide

/-- The same for sums: `return (f(n - 1) + x) + (f' + y)`. -/
theorem twice_sum_is_wrong {oth : Nat → BitVec 32 → BitVec 32 → BitVec 32} : ∃ (e : Expr) (base : BitVec 32) (env : Nat → BitVec 32),
    e.Clean = true ∧ e.Placed ∧ ¬∀ args m res m', RunOpt (intOps 32 oth) (once e base env) [0] ((once e base env).body args m) res m' ↔
      Run (intOps 32 oth) (once e base env) ((once e base env).body args m) res m' := by
  refine ⟨.add true (.add true .call (.leaf true 0)) (.add true .call (.leaf true 1)), 5, fun _ => 3, by decide,
    by simp [Expr.Placed], ?_⟩
  refine refute (v := .add) (p := 1) (fin1 (by decide) (by decide)) ?_
  change (5 : BitVec 32) + ((0 + 3) + (0 + 3)) ≠ (5 + 3) + (5 + 3)
  decide

/-- C116 fails for `return f(n - 1) + (f' << 1)`: an operation that is not looked at counts as one without the call. -/
theorem other_is_wrong : ∃ (e : Expr) (base : BitVec 32) (env : Nat → BitVec 32), e.Clean = true ∧ e.Placed ∧
    ¬∀ args m res m', RunOpt (intOps 32 fun _ a b => a <<< b.toNat) (once e base env) [0] ((once e base env).body args m) res m' ↔
      Run (intOps 32 fun _ a b => a <<< b.toNat) (once e base env) ((once e base env).body args m) res m' := by
  refine ⟨.add true .call (.other true 0 .call (.leaf true 0)), 5, fun _ => 1, by decide, by simp [Expr.Placed], ?_⟩
  refine refute (v := .add) (p := 1) (fin1 (by decide) (by decide)) ?_
  change (5 : BitVec 32) + (0 + 0 <<< (1 : BitVec 32).toNat) ≠ 5 + 5 <<< (1 : BitVec 32).toNat
  decide

open Verif.Model.Flt in
/-- the operations of a floating point mode -/
def fltOps (d : Desc) : Ops Fp where
  zero := fromPattern .nearest d 0
  one := fromPattern .nearest d ((2 ^ (d.expSize - 1) - 1) * 2 ^ d.em)
  add a b := (fcAdd .nearest a b).1
  sub a b := (fcSub .nearest a b).1
  mul a b := (fcMul .nearest a b).1
  neg := fcNeg
  other _ a _ := a

open Verif.Model.Flt in
/-- C116 fails for floating point numbers: `return 1.0 + f(n - 1)` for a double, where `f(0)` is 2^53, is 2^53 + 2
behind two calls instead of 2^53. -/
theorem float_is_wrong : ∃ (e : Expr) (base : Fp) (env : Nat → Fp), e.uses = 1 ∧ e.Clean = true ∧ e.Placed ∧
    ¬∀ args m res m', RunOpt (fltOps ⟨11, 52, false⟩) (once e base env) [0] ((once e base env).body args m) res m' ↔
      Run (fltOps ⟨11, 52, false⟩) (once e base env) ((once e base env).body args m) res m' := by
  refine ⟨.add true (.leaf true 0) .call, fromPattern .nearest ⟨11, 52, false⟩ 0x4340000000000000,
    fun _ => fromPattern .nearest ⟨11, 52, false⟩ 0x3ff0000000000000, by decide, by decide, by simp [Expr.Placed], ?_⟩
  refine refute (v := .add) (p := 2) (fin1 (by decide) (by decide)) ?_
  decide +kernel

open Verif.Model.Flt in
example : (fltOps ⟨11, 52, false⟩).add (fromPattern .nearest ⟨11, 52, false⟩ 0x4340000000000000)
    (fromPattern .nearest ⟨11, 52, false⟩ 0x3ff0000000000000) = fromPattern .nearest ⟨11, 52, false⟩ 0x4340000000000000 := by
  decide +kernel

end Verif.Props.TailRec
