import Verif.Lemmas.ConstBitsAcyclic
import Verif.Props.ConstBitsGraph
import Verif.Props.ConstBitsIter
/-!
# C76: the known-bits analysis as it is run: `constbits_analyze`
-/
namespace Verif.Props
open Verif.Spec Verif.Model Verif.Model.IrOpt Verif.Model.ConstBits

variable {I : IrGraph}

/-- the analysis ends: a depth of recursion and a number of repetitions of at most one per node plus two per bit suffice -/
theorem constbits_analyze_ends_partial (hG : GraphPlain I.G) (hw : WellFormed I) {fuel : Nat}
    (hf : I.nodes.length + (I.nodes.map fun k => 2 * k.w).sum < fuel) : ∃ mem, I.analyze fuel = some mem := by
  refine analyzeAll_some hG hw.deps _ _ (order_nodes hw) start_inv ?_
  have h1 : idle I ⟨[], State.bottom⟩ ≤ I.nodes.length := List.countP_le_length
  have h2 : left I State.bottom ≤ (I.nodes.map fun k => 2 * k.w).sum := Nat.sub_le _ _
  show idle I ⟨[], State.bottom⟩ + left I State.bottom < fuel
  omega

/-- the result never says less than any state that does not change any more, and no bit must be one and zero at once -/
theorem constbits_analyze_least_partial (hG : GraphPlain I.G) (hw : WellFormed I) {fuel : Nat} {mem : Mem} (h : I.analyze fuel = some mem) :
    (∀ f, Fixpoint I.G I.last f → ∀ k, Ascending (mem.s.at k) (f.at k)) ∧
      ∀ k, mem.s.at k = BitInfo.undefined k.w ∨ (mem.s.at k).o &&& ~~~(mem.s.at k).z = 0#k.w := by
  obtain ⟨hi, -⟩ := analyzeAll_ok hG hw.deps _ _ _ (order_nodes hw) start_inv h
  refine ⟨fun f hf k => ascending_iff.2 (hi.ub f hf k), fun k => ?_⟩
  rcases hi.good k with h | h
  · exact Or.inl h
  · refine Or.inr ?_
    apply getLsbD_ext; intro i hi
    have := h i hi
    cases hx : (mem.s.at k).o.getLsbD i <;> simp_all

/-- no node depends on itself -/
def AcyclicDeps (I : IrGraph) : Prop := ∃ r : Key → Nat, ∀ k, ∀ j ∈ I.deps k, r j < r k

/-- C76: in graphs without cycles, the bits found for every node the walk visits describe the values of the node in all executions, and
blocks that are marked as unreachable are never entered.  Missing from the full statement: graphs with cycles, for which it is false
(`constbits_analyze_wrong`), and operations that are not regular. -/
theorem constbits_analyze_partial (ha : AcyclicDeps I) (hr : GraphRegular I.G) {fuel : Nat} {mem : Mem} (h : I.analyze fuel = some mem) {b : Nat}
    {ρ : PEnv} (hb : I.G.Reaches b ρ) :
    (.block b ∈ I.order → (mem.s.block b).z = 1#1) ∧
      ∀ m n v, .data m n ∈ I.order → ρ m n = some v → Describes (mem.s.data m n).z (mem.s.data m n).o v := by
  obtain ⟨r, hr'⟩ := ha
  obtain ⟨f, hf⟩ := acyclic_fixpoint hr'
  have hf' : ∀ k, f.at k = transfer I.G I.last f k := by
    intro k
    cases k with
    | data m n => exact hf.data m n
    | block b => exact hf.block b
    | x x => exact hf.x x
  have hd0 : ∀ k, ¬ Done ⟨[], State.bottom⟩ k := fun k h => by rcases h with h | h <;> cases h
  obtain ⟨ag, -, hd⟩ := analyzeAll_eq hf' hr' _ _ _ (fun k hk => absurd hk (hd0 k)) (fun j hj => by cases hj) h
  obtain ⟨h1, h2⟩ := constbits_graph_partial hf hr hb
  refine ⟨fun hk => ?_, fun m n v hk hv => ?_⟩
  · have : mem.s.block b = f.block b := ag _ (hd _ hk)
    rw [this]; exact h1
  · have : mem.s.data m n = f.data m n := ag _ (hd _ hk)
    rw [this]; exact h2 m n v hv

/-- the result does not depend on the order of the walk: in graphs without cycles the state of every visited node is the only one that
fits the states of its operands -/
theorem constbits_analyze_exact_partial (ha : AcyclicDeps I) {fuel : Nat} {mem : Mem} (h : I.analyze fuel = some mem) {f : State}
    (hf : Fixpoint I.G I.last f) {k : Key} (hk : k ∈ I.order) : mem.s.at k = f.at k := by
  obtain ⟨r, hr⟩ := ha
  have hf' : ∀ k, f.at k = transfer I.G I.last f k := by
    intro k
    cases k with
    | data m n => exact hf.data m n
    | block b => exact hf.block b
    | x x => exact hf.x x
  have hd0 : ∀ k, ¬ Done ⟨[], State.bottom⟩ k := fun k h => by rcases h with h | h <;> cases h
  obtain ⟨ag, -, hd⟩ := analyzeAll_eq hf' hr _ _ _ (fun k hk => absurd hk (hd0 k)) (fun j hj => by cases hj) h
  exact ag _ (hd _ hk)

/-! ## A graph without cycles

`if (c) v = u & 0xf0; else v = u & 0x30; w = v & 0x8f` -/

/-- blocks: 0 start, 1 and 2 the branches, 3 the join, 4 the end; node 5 of mode `Bu` is `v`, node 6 is `w` -/
def diamond : IrGraph where
  G :=
    { node
        | ⟨false, 8, 32⟩, 1 => .op (.const 0xf0#8)
        | ⟨false, 8, 32⟩, 2 => .op (.const 0x30#8)
        | ⟨false, 8, 32⟩, 3 => .op (.and (.leaf mBu 0) (.leaf mBu 1))
        | ⟨false, 8, 32⟩, 4 => .op (.and (.leaf mBu 0) (.leaf mBu 2))
        | ⟨false, 8, 32⟩, 5 => .phi [3, 4]
        | ⟨false, 8, 32⟩, 6 => .op (.and (.leaf mBu 5) (.const 0x8f#8))
        | _, _ => .input
      blockOf
        | ⟨false, 8, 32⟩, 3 => 1
        | ⟨false, 8, 32⟩, 4 => 2
        | ⟨false, 8, 32⟩, 5 => 3
        | ⟨false, 8, 32⟩, 6 => 3
        | _, _ => 0
      preds
        | 1 => [1]
        | 2 => [2]
        | 3 => [3, 4]
        | 4 => [5]
        | _ => []
      xdef
        | 1 => .cond 0 true
        | 2 => .cond 0 false
        | 3 => .jmp
        | 4 => .jmp
        | 5 => .other
        | 6 => .other
        | _ => .bad
      xblock
        | 3 => 1
        | 4 => 2
        | 5 => 3
        | 6 => 4
        | _ => 0
      start := 0 }
  last := 4
  nodes := [.block 0, .block 1, .block 2, .block 3, .block 4, .x 1, .x 2, .x 3, .x 4, .x 5, .x 6, .data bmode 0, .data mBu 0, .data mBu 1, .data mBu 2,
    .data mBu 3, .data mBu 4, .data mBu 5, .data mBu 6]
  extra
    | .x 5 => [.data mBu 6]
    | _ => []
  root := .x 6

theorem diamond_node {m : IMode} {n : Nat} (h : m ≠ mBu) : diamond.G.node m n = .input := by
  unfold diamond
  simp only
  split <;> first | rfl | exact absurd rfl h

theorem diamond_regular : GraphRegular diamond.G where
  op m n e h := by
    by_cases h1 : m = mBu
    · subst h1
      match n with
      | 0 => cases h
      | 1 => cases h; decide
      | 2 => cases h; decide
      | 3 => cases h; decide
      | 4 => cases h; decide
      | 5 => cases h
      | 6 => cases h; decide
      | n + 7 => cases h
    rw [diamond_node h1] at h; cases h
  switch x k sel h := by
    match x with
    | 0 => cases h
    | 1 => cases h
    | 2 => cases h
    | 3 => cases h
    | 4 => cases h
    | 5 => cases h
    | 6 => cases h
    | n + 7 => cases h

theorem diamond_acyclic : AcyclicDeps diamond := by
  refine ⟨fun k => match k with
    | .block 0 => 1
    | .block 3 => 5
    | .block 4 => 7
    | .block _ => 3
    | .x 1 => 2
    | .x 2 => 2
    | .x 3 => 4
    | .x 4 => 4
    | .x 5 => 6
    | .x _ => 8
    | .data ⟨false, 8, 32⟩ 3 => 1
    | .data ⟨false, 8, 32⟩ 4 => 1
    | .data ⟨false, 8, 32⟩ 5 => 5
    | .data ⟨false, 8, 32⟩ 6 => 6
    | .data _ _ => 0, fun k => ?_⟩
  match k with
  | .block 0 => decide
  | .block 1 => decide
  | .block 2 => decide
  | .block 3 => decide
  | .block 4 => decide
  | .block (n + 5) => intro j hj; cases hj
  | .x 0 => decide
  | .x 1 => decide
  | .x 2 => decide
  | .x 3 => decide
  | .x 4 => decide
  | .x 5 => decide
  | .x 6 => decide
  | .x (n + 7) => intro j hj; rcases List.mem_cons.1 hj with rfl | hj <;> [exact (by decide : 1 < 8); cases hj]
  | .data m n =>
    by_cases h1 : m = mBu
    · subst h1
      match n with
      | 0 => decide
      | 1 => decide
      | 2 => decide
      | 3 => decide
      | 4 => decide
      | 5 => decide
      | 6 => decide
      | n + 7 => intro j hj; cases hj
    · intro j hj
      simp only [IrGraph.deps, diamond_node h1] at hj
      cases hj

theorem diamond_wellFormed : WellFormed diamond := by
  refine ⟨?_, ?_, ?_, ?_⟩
  · unfold Closed; decide +kernel
  · decide +kernel
  · have : ∀ k ∈ diamond.nodes, ∀ b ∈ diamond.block k, Key.block b ∈ diamond.nodes := by decide +kernel
    exact fun k hk b hb => this k hk b hb
  · decide +kernel

/-- at most bit 7 of `w` can be set -/
example : (diamond.analyze 200).map (fun mem => mem.s.data mBu 6) = some ⟨0x80#8, 0#8⟩ := by decide +kernel

/-- all nodes are visited -/
example : ∀ k ∈ diamond.nodes, k ∈ diamond.order := by decide +kernel

/-- in all executions -/
example {b : Nat} {ρ : PEnv} (h : diamond.G.Reaches b ρ) {v : BitVec 8} (hv : ρ mBu 6 = some v) : v &&& 0x7f#8 = 0#8 := by
  have h1 : (diamond.analyze 200).map (fun mem => mem.s.data mBu 6) = some ⟨0x80#8, 0#8⟩ := by decide +kernel
  cases hm : diamond.analyze 200 with
  | none => rw [hm] at h1; cases h1
  | some mem =>
    rw [hm] at h1
    have h2 := (constbits_analyze_partial diamond_acyclic diamond_regular hm h).2 mBu 6 v (by decide +kernel) hv
    have h3 : mem.s.data mBu 6 = ⟨0x80#8, 0#8⟩ := Option.some.inj h1
    rw [h3] at h2
    unfold Describes at h2
    clear hv
    revert h2 v
    decide +kernel

/-! ## A graph with cycles for which the result is wrong

```
b0: e = ((u | 1) == 0)                                        -- always false
b1: p = Phi(p, q, false); q = Phi(p, q, true)                 -- from b4, b2, b0
    if (e) goto b4; else goto b6
b2: if (c) goto b2; else goto b1
b3: if (p) goto b5; else goto b2
b4: goto b1
b5: return
b6: if (e) goto b3; else goto b4
```

The analysis finds that `q` is always true, but it is false when b1 is entered from b4. -/

def tangle : IrGraph where
  G :=
    { node
        | ⟨false, 1, 0⟩, 0 => .op (.cmp Rel.equal (.leaf mBu 1) (.const 0#8))
        | ⟨false, 1, 0⟩, 1 => .phi [1, 2, 3]
        | ⟨false, 1, 0⟩, 2 => .phi [1, 2, 4]
        | ⟨false, 1, 0⟩, 3 => .op (.const 0#1)
        | ⟨false, 1, 0⟩, 4 => .op (.const 1#1)
        | ⟨false, 8, 32⟩, 1 => .op (.or (.leaf mBu 0) (.const 1#8))
        | _, _ => .input
      blockOf
        | ⟨false, 1, 0⟩, 1 => 1
        | ⟨false, 1, 0⟩, 2 => 1
        | _, _ => 0
      preds
        | 1 => [40, 20, 0]
        | 2 => [30, 21]
        | 3 => [61]
        | 4 => [60, 11]
        | 5 => [31]
        | 6 => [10]
        | 8 => [50]
        | _ => []
      xdef
        | 0 => .jmp
        | 10 => .cond 0 false
        | 11 => .cond 0 true
        | 20 => .cond 5 false
        | 21 => .cond 5 true
        | 30 => .cond 1 false
        | 31 => .cond 1 true
        | 40 => .jmp
        | 50 => .other
        | 60 => .cond 0 false
        | 61 => .cond 0 true
        | 80 => .other
        | _ => .bad
      xblock x := x / 10
      start := 0 }
  last := 8
  nodes := [.block 0, .block 1, .block 2, .block 3, .block 4, .block 5, .block 6, .block 8, .x 0, .x 10, .x 11, .x 20, .x 21, .x 30, .x 31,
    .x 40, .x 50, .x 60, .x 61, .x 80, .data bmode 0, .data bmode 1, .data bmode 2, .data bmode 3, .data bmode 4, .data bmode 5, .data mBu 0,
    .data mBu 1]
  extra _ := []
  root := .x 80

theorem tangle_node {m : IMode} {n : Nat} (h : m ≠ mBu) (h' : m ≠ bmode) : tangle.G.node m n = .input := by
  unfold tangle
  simp only
  split <;> first | rfl | exact absurd rfl h | exact absurd rfl h'

theorem tangle_plain : GraphPlain tangle.G := by
  intro m n e h
  by_cases h1 : m = mBu
  · subst h1
    match n with
    | 0 => cases h
    | 1 => cases h; exact ⟨⟨mBu_valid, mBu_valid⟩, by decide, by decide⟩
    | n + 2 => cases h
  by_cases h2 : m = bmode
  · subst h2
    match n with
    | 0 => cases h; exact ⟨⟨mBu_valid, mBu_valid⟩, by decide, by decide⟩
    | 1 => cases h
    | 2 => cases h
    | 3 => cases h; exact ⟨bmode_valid, by decide, by decide⟩
    | 4 => cases h; exact ⟨bmode_valid, by decide, by decide⟩
    | n + 5 => cases h
  rw [tangle_node h1 h2] at h; cases h

theorem tangle_wellFormed : WellFormed tangle := by
  refine ⟨?_, ?_, ?_, ?_⟩
  · unfold Closed; decide +kernel
  · decide +kernel
  · have : ∀ k ∈ tangle.nodes, ∀ b ∈ tangle.block k, Key.block b ∈ tangle.nodes := by decide +kernel
    exact fun k hk b hb => this k hk b hb
  · decide +kernel

theorem tangle_regular : GraphRegular tangle.G where
  op m n e h := (tangle_plain m n e h).2.1
  switch x k sel h := by
    unfold tangle at h
    simp only at h
    split at h <;> cases h

/-- `q` is false when the second iteration of the loop begins -/
theorem tangle_reaches : ∃ ρ : PEnv, ρ bmode 2 = some 0#1 ∧ tangle.G.Reaches 1 ρ := by
  let ρ0 : PEnv := fun m n => if m = bmode ∧ (n = 0 ∨ n = 3) then some 0 else none
  let ρ1 : PEnv := fun m n => if m = bmode ∧ (n = 0 ∨ n = 1) then some 0 else none
  let ρ4 : PEnv := fun m n => if m = bmode ∧ n = 2 then some 0 else none
  have h0 : tangle.G.Reaches 0 ρ0 := by
    refine .start (opq := fun _ _ => 0) ?_
    intro m n v h
    by_cases hm : m = bmode ∧ (n = 0 ∨ n = 3)
    · obtain ⟨rfl, hn⟩ := hm
      have : v = 0#1 := by simpa [ρ0, hn] using h.symm
      subst this
      rcases hn with rfl | rfl
      · refine SsaGraph.Computes.op (G := tangle.G) (m := bmode) (n := 0) (e := .cmp Rel.equal (.leaf mBu 1) (.const 0#8)) (env := fun _ _ => BitVec.ofNat _ 1)
          rfl rfl ?_ ⟨mBu_valid, mBu_valid⟩
        rintro k j (⟨rfl, rfl⟩ | h)
        · refine SsaGraph.Computes.op (G := tangle.G) (m := mBu) (n := 1) (e := .or (.leaf mBu 0) (.const 1#8)) (env := fun _ _ => 0)
            rfl rfl ?_ ⟨mBu_valid, mBu_valid⟩
          rintro k j (⟨rfl, rfl⟩ | h)
          · exact SsaGraph.Computes.input (G := tangle.G) (m := mBu) (n := 0) (opq := fun _ _ => 0) rfl rfl
          · exact h.elim
        · exact h.elim
      · exact SsaGraph.Computes.op (G := tangle.G) (m := bmode) (n := 3) (e := .const 0#1) (env := fun _ _ => 0) rfl rfl (fun _ _ h => False.elim h) bmode_valid
    · simp [ρ0, hm] at h
  have h1 : tangle.G.Reaches 1 ρ1 := by
    refine .step (x := 0) (i := 2) (opq := fun _ _ => 0) h0 rfl trivial rfl ?_
    intro m n v h
    by_cases hm : m = bmode ∧ (n = 0 ∨ n = 1)
    · obtain ⟨rfl, hn⟩ := hm
      have : v = 0#1 := by simpa [ρ1, hn] using h.symm
      subst this
      rcases hn with rfl | rfl
      · exact .keep (by decide) rfl
      · exact .phi (j := 2) (a := 3) (args := [1, 2, 3]) rfl rfl rfl rfl rfl
    · simp [ρ1, hm] at h
  have keep : ∀ b i m n v, b ≠ 0 → b ≠ 1 → ρ1 m n = some v → tangle.G.Computes ρ1 (fun _ _ => 0) b i m n v := by
    intro b i m n v hb0 hb1 h
    refine .keep ?_ h
    have : tangle.G.blockOf m n = 0 ∨ tangle.G.blockOf m n = 1 := by
      unfold tangle; simp only
      split <;> simp
    omega
  have h6 : tangle.G.Reaches 6 ρ1 := .step (x := 10) (i := 0) h1 rfl ⟨0#1, rfl, by decide⟩ rfl fun m n v h => keep 6 _ m n v (by decide) (by decide) h
  have h4 : tangle.G.Reaches 4 ρ1 := .step (x := 60) (i := 0) h6 rfl ⟨0#1, rfl, by decide⟩ rfl fun m n v h => keep 4 _ m n v (by decide) (by decide) h
  refine ⟨ρ4, rfl, ?_⟩
  refine .step (x := 40) (i := 0) (opq := fun _ _ => 0) h4 rfl trivial rfl ?_
  intro m n v h
  by_cases hm : m = bmode ∧ n = 2
  · obtain ⟨rfl, rfl⟩ := hm
    have : v = 0#1 := by simpa [ρ4] using h.symm
    subst this
    exact .phi (j := 0) (a := 1) (args := [1, 2, 4]) rfl rfl rfl rfl rfl
  · simp [ρ4, hm] at h

/-- with cycles, the bits found may be wrong: the analysis finds that `q` is always true, but it can be false.  The graph is well-formed,
all its operations are regular, and all nodes are visited. -/
theorem constbits_analyze_wrong : ∃ I : IrGraph, GraphPlain I.G ∧ GraphRegular I.G ∧ WellFormed I ∧ (∀ k ∈ I.nodes, k ∈ I.order) ∧
    ∃ mem, I.analyze 200 = some mem ∧ ∃ b ρ m n v, I.G.Reaches b ρ ∧ ρ m n = some v ∧ ¬ Describes (mem.s.data m n).z (mem.s.data m n).o v := by
  refine ⟨tangle, tangle_plain, tangle_regular, tangle_wellFormed, by decide +kernel, ?_⟩
  have h : (tangle.analyze 200).map (fun mem => mem.s.data bmode 2) = some ⟨1#1, 1#1⟩ := by decide +kernel
  cases hm : tangle.analyze 200 with
  | none => rw [hm] at h; cases h
  | some mem =>
    rw [hm] at h
    have h' : mem.s.data bmode 2 = ⟨1#1, 1#1⟩ := Option.some.inj h
    obtain ⟨ρ, h1, h2⟩ := tangle_reaches
    refine ⟨mem, rfl, 1, ρ, bmode, 2, 0#1, h2, h1, ?_⟩
    rw [h']
    unfold Describes
    decide +kernel

/-- so the result need not be a state that does not change any more -/
theorem constbits_analyze_unstable : ∃ I : IrGraph, GraphPlain I.G ∧ WellFormed I ∧ ∃ mem, I.analyze 200 = some mem ∧ ¬ Fixpoint I.G I.last mem.s := by
  obtain ⟨I, h1, h2, h3, -, mem, h4, b, ρ, m, n, v, h5, h6, h7⟩ := constbits_analyze_wrong
  exact ⟨I, h1, h3, mem, h4, fun hf => h7 ((constbits_graph_partial hf h2 h5).2 m n v h6)⟩

/-- a depth of 200 is enough for this graph -/
example : tangle.nodes.length + (tangle.nodes.map fun k => 2 * k.w).sum < 200 := by decide +kernel

end Verif.Props
