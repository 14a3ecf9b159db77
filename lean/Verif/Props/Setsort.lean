import Verif.Lemmas.Setsort
import Verif.Lemmas.SetsortPoly
import Mathlib.Data.BitVec
/-!
# Multi operations of the reassociation (C119)
-/
namespace Verif.Props.Setsort

open Verif.Spec.Setsort Verif.Model.Setsort Verif.Lemmas.Setsort

/-- **Sums.**  After the walk and any merges every set is a linear combination of its operands with the value of its base node, for all values of the
atoms and in any width. -/
theorem add_sets_right (w : Nat) (g : Graph (BitVec w)) (ha : Acyclic g.node) (hs : NoSame g.node) (val : Nat → BitVec w)
    (hc : Computes g.node g.size val) (l : List Step)
    (hl : ∀ s ∈ l, StepOk g.size (fun t => (walk true g g.size).setOf t = some t) val s) (t : Nat) (ht : (walk true g g.size).setOf t = some t) :
    val t = ∑ n ∈ Finset.range g.size, steps (walk true g g.size).coef l t n * val n :=
  steps_eqn g.size (fun t => (walk true g g.size).setOf t = some t) val l _ hl
    (fun t ht => walk_eqn true g val ha hs hc (fun h => Bool.noConfusion h) t ht) t ht

/-- **Sums are built anew rightly**: groups of operands with the same coefficient, those with the opposite one subtracted in signed modes, negative ones
left for the end.  No assertion fails, and the value is the linear combination, whatever the order of the coefficients and of the nodes. -/
theorem rebuild_poly_right (w : Nat) (signed : Bool) (d : Dic w) (hkeys : (d.map (·.1)).Nodup) (hne : ∀ e ∈ d, e.2 ≠ []) :
    rebuildPoly signed d = some (d.map fun e => e.1 * e.2.sum).sum := by
  obtain ⟨s, hs, inv⟩ := polySteps_inv signed d hne (keys d) [] ⟨none, [], []⟩ (by simpa [keys] using hkeys) (fun _ h => h)
    ⟨rfl, List.nodup_nil, (fun _ h => by cases h), (fun _ h => by cases h), (fun _ h => by cases h), (fun _ _ h => by cases h), (fun _ h => by cases h)⟩
  obtain ⟨c, hc, hv⟩ := polyNeg_right d hne s.negs s.curr (fun k h => by simpa using inv.negSub k h)
  unfold rebuildPoly
  have e : (d.map (·.1)) = keys d := rfl
  rw [e, hs]
  dsimp only
  rw [hc]
  dsimp only
  rw [hv, inv.val, ← List.sum_append, ← List.map_append, ← parts_sum d hkeys]
  congr 1
  refine (List.Perm.map _ ?_).sum_eq
  rw [List.perm_ext_iff_of_nodup inv.nodup (show (keys d).Nodup from hkeys)]
  intro k
  rw [List.mem_append]
  constructor
  · rintro (h | h)
    · exact inv.sub k h
    · simpa using inv.negSub k h
  · intro h
    exact inv.all k (by simpa using h)

/-- the groups hold exactly the operands with a coefficient other than 0 -/
def Groups {w : Nat} (N : Nat) (c val : Nat → BitVec w) (d : Dic w) : Prop :=
  (d.flatMap fun e => e.2.map fun v => (e.1, v)).Perm (((List.range N).filter fun n => c n ≠ 0).map fun n => (c n, val n))

/-- **Sums, all together**: the walk, any merges, and the new nodes of a set compute the value of its base node. -/
theorem add_rebuilt_right (w : Nat) (signed : Bool) (g : Graph (BitVec w)) (ha : Acyclic g.node) (hs : NoSame g.node) (val : Nat → BitVec w)
    (hc : Computes g.node g.size val) (l : List Step)
    (hl : ∀ s ∈ l, StepOk g.size (fun t => (walk true g g.size).setOf t = some t) val s) (t : Nat) (ht : (walk true g g.size).setOf t = some t)
    (d : Dic w) (hkeys : (d.map (·.1)).Nodup) (hne : ∀ e ∈ d, e.2 ≠ []) (hd : Groups g.size (steps (walk true g g.size).coef l t) val d) :
    rebuildPoly signed d = some (val t) := by
  rw [rebuild_poly_right w signed d hkeys hne]
  congr 1
  rw [add_sets_right w g ha hs val hc l hl t ht]
  have h1 : (d.map fun e => e.1 * e.2.sum).sum = ((d.flatMap fun e => e.2.map fun v => (e.1, v)).map fun p => p.1 * p.2).sum := by
    clear hd hne hkeys
    induction d with
    | nil => rfl
    | cons e d ih =>
      rw [List.map_cons, List.sum_cons, ih, List.flatMap_cons, List.map_append, List.sum_append]
      congr 1
      rw [List.map_map]
      generalize e.2 = vs
      induction vs with
      | nil => simp
      | cons v vs ih' => rw [List.sum_cons, List.map_cons, List.sum_cons, mul_add, ih']; rfl
  rw [h1, (hd.map _).sum_eq, List.map_map]
  generalize steps (walk true g g.size).coef l t = c
  generalize g.size = N
  induction N with
  | zero => simp
  | succ N ih =>
    rw [List.range_succ, List.filter_append, List.map_append, List.sum_append, ih, Finset.sum_range_succ]
    congr 1
    by_cases hz : c N = 0
    · simp [hz]
    · rw [List.filter_cons_of_pos (by simpa using hz)]
      simp

/-- `3x - 3y + z - 2v`, signed: two groups, one negative coefficient for the end -/
example : rebuildPoly true ([(-3#8, [5]), (3, [7]), (-2#8, [10]), (1, [4])] : Dic 8) = some (3 * (7 - 5) + 4 - 2 * 10) := by decide +kernel

/-- one bit of the operands of a set: in any order, without those with coefficient 0 -/
def Members {R : Type} [CommSemiring R] [DecidableEq R] (N : Nat) (c : Nat → R) (l : List Nat) : Prop :=
  l.Perm ((List.range N).filter fun n => c n ≠ 0)

/-- **Or.**  What is built from a set, in any order of the operands, is the value of its base node. -/
theorem or_sets_right (g : Graph OrBit) (ha : Acyclic g.node) (hp : Plain g.node) (val : Nat → OrBit) (hc : Computes g.node g.size val)
    (l : List Step) (hl : ∀ s ∈ l, StepOk g.size (fun t => (walk false g g.size).setOf t = some t) val s) (t : Nat)
    (ht : (walk false g g.size).setOf t = some t) (ms : List Nat) (hm : Members g.size (steps (walk false g g.size).coef l t) ms) :
    rebuild .f (ms.map val) = val t := by
  rw [rebuild_sum OrBit.f _ (Or.inl rfl), members_sum g.size _ val (fun n => by cases steps (walk false g g.size).coef l t n <;> decide) ms hm]
  refine (steps_eqn g.size (fun t => (walk false g g.size).setOf t = some t) val l _ hl (fun t ht => ?_) t ht).symm
  refine walk_eqn false g val ha (plain_noSame hp) hc (fun _ j _ _ t' ht' => ?_) t ht
  rw [contrib_plain g hp j _ t' ht']
  have := edgeCount_pos g _ _ t' ht'
  obtain ⟨k, hk⟩ := Nat.exists_eq_succ_of_ne_zero (Nat.ne_of_gt this)
  rw [hk]; exact or_cast k

theorem and_eqn (g : Graph AndBit) (ha : Acyclic g.node) (hp : Plain g.node) (val : Nat → AndBit) (hc : Computes g.node g.size val) (t : Nat)
    (ht : (walk false g g.size).setOf t = some t) : val t = ∑ n ∈ Finset.range g.size, (walk false g g.size).coef t n * val n := by
  refine walk_eqn false g val ha (plain_noSame hp) hc (fun _ j _ _ t' ht' => ?_) t ht
  rw [contrib_plain g hp j _ t' ht']
  have := edgeCount_pos g _ _ t' ht'
  obtain ⟨k, hk⟩ := Nat.exists_eq_succ_of_ne_zero (Nat.ne_of_gt this)
  rw [hk]; exact and_cast k

/-- **And.**  The same; no set is empty, so the constant 0 is never taken for the value of an empty one. -/
theorem and_sets_right (g : Graph AndBit) (ha : Acyclic g.node) (hp : Plain g.node) (val : Nat → AndBit) (hc : Computes g.node g.size val)
    (l : List Step) (hl : ∀ s ∈ l, StepOk g.size (fun t => (walk false g g.size).setOf t = some t) val s) (t : Nat)
    (ht : (walk false g g.size).setOf t = some t) (ms : List Nat) (hm : Members g.size (steps (walk false g g.size).coef l t) ms) :
    rebuild .f (ms.map val) = val t := by
  have hne : ms ≠ [] := by
    intro he
    subst he
    have h0 : ∀ n ∈ Finset.range g.size, steps (walk false g g.size).coef l t n * (.f : AndBit) = 0 := by
      intro n hn
      by_cases hz : steps (walk false g g.size).coef l t n = 0
      · rw [hz, zero_mul]
      · exact absurd (hm.mem_iff.2 (List.mem_filter.2 ⟨List.mem_range.2 (Finset.mem_range.1 hn), by simpa using hz⟩)) (by simp)
    have hf : Computes g.node g.size (fun _ => (.f : AndBit)) := by
      intro n _
      cases hp n with
      | inl h => rw [h]; trivial
      | inr h => obtain ⟨a, b, h⟩ := h; rw [h]; rfl
    have := steps_eqn g.size (fun t => (walk false g g.size).setOf t = some t) (fun _ => (.f : AndBit)) l _
      (fun s hs => by
        have := hl s hs
        cases s with
        | merge o b => exact this
        | trivial o x b => exact ⟨this.1, this.2.1, this.2.2.1, rfl⟩)
      (fun t ht => and_eqn g ha hp (fun _ => .f) hf t ht) t ht
    rw [Finset.sum_eq_zero h0] at this
    exact absurd this (by decide)
  rw [rebuild_sum _ _ (Or.inr (by simpa using hne)),
    members_sum g.size _ val (fun n => by cases steps (walk false g g.size).coef l t n <;> decide) ms hm]
  exact (steps_eqn g.size (fun t => (walk false g g.size).setOf t = some t) val l _ hl (fun t ht => and_eqn g ha hp val hc t ht) t ht).symm

/-- **Eor**, if a node inside a tree has an odd number of edges to it: one user, for instance.  The full claim would be without the hypothesis. -/
theorem eor_sets_partial (g : Graph XorBit) (ha : Acyclic g.node) (hp : Plain g.node)
    (hodd : ∀ n, n < g.size → g.node n ≠ .atom → g.extern n = true ∨ edgeCount g n = 0 ∨ edgeCount g n % 2 = 1)
    (val : Nat → XorBit) (hc : Computes g.node g.size val)
    (l : List Step) (hl : ∀ s ∈ l, StepOk g.size (fun t => (walk false g g.size).setOf t = some t) val s) (t : Nat)
    (ht : (walk false g g.size).setOf t = some t) (ms : List Nat) (hm : Members g.size (steps (walk false g g.size).coef l t) ms) :
    rebuild .f (ms.map val) = val t := by
  rw [rebuild_sum XorBit.f _ (Or.inl rfl), members_sum g.size _ val (fun n => by cases steps (walk false g g.size).coef l t n <;> decide) ms hm]
  refine (steps_eqn g.size (fun t => (walk false g g.size).setOf t = some t) val l _ hl (fun t ht => ?_) t ht).symm
  refine walk_eqn false g val ha (plain_noSame hp) hc (fun _ j hj hat t' ht' => ?_) t ht
  rw [contrib_plain g hp j _ t' ht']
  have hpos := edgeCount_pos g _ _ t' ht'
  have hex : g.extern (g.size - 1 - j) = false := by
    unfold target at ht'
    split at ht'
    · cases ht'
    · split at ht'
      · cases ht'
      · split at ht'
        · rename_i h
          rw [Bool.and_eq_true] at h
          simpa using h.1
        · cases ht'
  have := hodd (g.size - 1 - j) (by omega) hat
  rw [hex] at this
  have h1 : edgeCount g (g.size - 1 - j) % 2 = 1 := by
    rcases this with h | h | h
    · exact Bool.noConfusion h
    · omega
    · exact h
  have h2 : edgeCount g (g.size - 1 - j) = 2 * (edgeCount g (g.size - 1 - j) / 2) + 1 := by omega
  rw [h2]; exact xor_cast _

/-- `t ^ m ^ z ^ t ^ m` with `t = p ^ q`: p 0, q 1, m 2 (`c & d`, the root of another set), z 3, t 4 -/
def eorNode : Nat → Node XorBit
  | 4 => .bin 1 0 1 1
  | 5 => .bin 1 4 1 2
  | 6 => .bin 1 5 1 3
  | 7 => .bin 1 6 1 4
  | 8 => .bin 1 7 1 2
  | _ => .atom

def eorGraph : Graph XorBit := ⟨eorNode, fun n => n = 8, fun n => n = 2, 9⟩

/-- the values for p = 1 and everything else 0 -/
def eorVal : Nat → XorBit
  | 0 => .t | 4 => .t | 5 => .t | 6 => .t | _ => .f

/-- **Eor with two edges to a node inside is wrong.**  `t = p ^ q` is a node of the tree of `t ^ m ^ z ^ t ^ m`, and p and q become operands of the set once, not
twice.  As m occurs twice the set is marked as changed, and `p ^ q ^ z` is built in place of `z`. -/
theorem eor_two_edges_wrong :
    Acyclic eorGraph.node ∧ Plain eorGraph.node ∧ Computes eorGraph.node 9 eorVal ∧ (walk false eorGraph 9).setOf 8 = some 8 ∧
      (walk false eorGraph 9).changed 8 = true ∧ Members 9 ((walk false eorGraph 9).coef 8) [0, 1, 3] ∧ eorVal 8 = eorVal 3 ∧
      rebuild .f ([0, 1, 3].map eorVal) ≠ eorVal 8 := by
  refine ⟨?_, ?_, ?_, by decide +kernel, by decide +kernel, ?_, rfl, by decide +kernel⟩
  · intro n m hm
    match n with
    | 0 | 1 | 2 | 3 => cases hm
    | 4 | 5 | 6 | 7 | 8 => revert m; decide +kernel
    | n + 9 => cases hm
  · intro n
    match n with
    | 0 | 1 | 2 | 3 => exact Or.inl rfl
    | 4 | 5 | 6 | 7 | 8 => exact Or.inr ⟨_, _, rfl⟩
    | n + 9 => exact Or.inl rfl
  · intro n hn
    match n with
    | 0 | 1 | 2 | 3 => trivial
    | 4 | 5 | 6 | 7 | 8 => rfl
    | n + 9 => omega
  · unfold Members
    have : ((List.range 9).filter fun n => (walk false eorGraph 9).coef 8 n ≠ 0) = [0, 1, 3] := by decide +kernel
    rw [this]

/-- `3 * x` with `x - x` below: `(x - x) + y` -/
def subNode : Nat → Node (BitVec 32)
  | 2 => .bin 1 0 (-1) 0
  | 3 => .bin 1 2 1 1
  | _ => .atom

def subGraph : Graph (BitVec 32) := ⟨subNode, fun n => n = 3, fun _ => false, 4⟩

/-- **A difference of a node and itself counts twice with a minus**: both edges are taken for the right operand.  Local optimisation replaces such a
difference by 0, which the walk relies on (`NoSame` in `add_sets_right`). -/
theorem sub_same_wrong :
    (walk true subGraph 4).setOf 3 = some 3 ∧ (walk true subGraph 4).coef 3 0 = -2 ∧ (walk true subGraph 4).coef 3 1 = 1 ∧
      (walk true subGraph 4).changed 3 = true := by
  refine ⟨by decide +kernel, by decide +kernel, by decide +kernel, by decide +kernel⟩

/-- a case: `3 * (x + y) - x`, in 8 bits, with x 0, y 1 -/
def addNode : Nat → Node (BitVec 8)
  | 2 => .bin 1 0 1 1
  | 3 => .mulc 3 2
  | 4 => .bin 1 3 (-1) 0
  | _ => .atom

example : let g : Graph (BitVec 8) := ⟨addNode, fun n => n = 4, fun _ => false, 5⟩
    (walk true g 5).setOf 2 = some 4 ∧ (walk true g 5).coef 4 0 = 2 ∧ (walk true g 5).coef 4 1 = 3 ∧ (walk true g 5).changed 4 = true := by
  refine ⟨by decide +kernel, by decide +kernel, by decide +kernel, by decide +kernel⟩

example : NoSame addNode := by
  intro n ca a cb b h e
  match n with
  | 0 | 1 => cases h
  | 2 => cases h; omega
  | 3 => cases h
  | 4 => cases h; omega
  | n + 5 => cases h

example : Computes addNode 5 (fun | 0 => 7#8 | 1 => 100#8 | 2 => 107#8 | 3 => 65#8 | 4 => 58#8 | _ => 0#8) := by
  intro n hn
  match n with
  | 0 | 1 => trivial
  | 2 => exact (by decide +kernel : (107#8) = 1 * 7#8 + 1 * 100#8)
  | 3 => exact (by decide +kernel : (65#8) = 3 * 107#8)
  | 4 => exact (by decide +kernel : (58#8) = 1 * 65#8 + (-1) * 7#8)
  | n + 5 => omega

/-- one user each: `(p ^ q) ^ (z ^ p)` is built as `q ^ z` -/
def eorNode1 : Nat → Node XorBit
  | 3 => .bin 1 0 1 1
  | 4 => .bin 1 2 1 0
  | 5 => .bin 1 3 1 4
  | _ => .atom

example : let g : Graph XorBit := ⟨eorNode1, fun n => n = 5, fun _ => false, 6⟩
    (walk false g 6).setOf 5 = some 5 ∧ ((List.range 6).filter fun n => (walk false g 6).coef 5 n ≠ 0) = [1, 2] ∧
      (∀ n, n < 6 → g.extern n = true ∨ n < 3 ∨ edgeCount g n % 2 = 1) := by
  refine ⟨by decide +kernel, by decide +kernel, by decide +kernel⟩

/-- Or: `(p | q) | ((p | q) | z)` is `p | q | z` -/
def orNode1 : Nat → Node OrBit
  | 3 => .bin 1 0 1 1
  | 4 => .bin 1 3 1 2
  | 5 => .bin 1 3 1 4
  | _ => .atom

example : let g : Graph OrBit := ⟨orNode1, fun n => n = 5, fun _ => false, 6⟩
    (walk false g 6).setOf 3 = some 5 ∧ ((List.range 6).filter fun n => (walk false g 6).coef 5 n ≠ 0) = [0, 1, 2] := by
  refine ⟨by decide +kernel, by decide +kernel⟩

end Verif.Props.Setsort
