import Verif.Lemmas.DomFront
import Verif.Lemmas.DomPost
/-!
# Dominators, postdominators and dominance frontiers
-/
namespace Verif.Props
open Verif.Model.Dom Verif.Spec

/-! ## A graph

The blocks 0 (start), 1 (head of a loop), 2 and 3 (branches), 4 (after the loop), 5 (end), 6 (not reachable, jumps to 4). 7 is an endless loop that
is kept alive, entered from 4. -/

def exampleCfg : Cfg where
  n := 8
  start := 0
  stop := 5
  outs b := [[some 1], [some 2, some 3], [some 1], [some 1, some 4], [some 5, some 7], [], [some 4], [some 7, none]].getD b []
  ins b := [[], [some 0, some 2, some 3, none], [some 1], [some 1], [some 3, some 6], [some 4], [none], [some 4, some 7]].getD b []
  keep := [7]

theorem exampleCfg_ok : exampleCfg.Ok := by
  have h8 : ∀ P : Nat → Prop, (∀ b, b ∈ List.range 8 → P b) → ∀ b, b < exampleCfg.n → P b := fun P h b hb => h b (List.mem_range.2 hb)
  refine ⟨by decide, by decide, fun b c hb => ?_, fun b c hb => ?_, by decide, fun b c hb hc => ?_, h8 _ (by decide)⟩
  · revert c
    exact h8 (fun b => ∀ c, some c ∈ exampleCfg.outs b → c < exampleCfg.n) (fun b hb c hc => by
      have : ∀ b ∈ List.range 8, ∀ o ∈ exampleCfg.outs b, ∀ c ∈ o, c < 8 := by decide
      exact this b hb _ hc c rfl) b hb
  · revert c
    exact h8 (fun b => ∀ c, some c ∈ exampleCfg.ins b → c < exampleCfg.n) (fun b hb c hc => by
      have : ∀ b ∈ List.range 8, ∀ o ∈ exampleCfg.ins b, ∀ c ∈ o, c < 8 := by decide
      exact this b hb _ hc c rfl) b hb
  · have : ∀ b ∈ List.range 8, ∀ c ∈ List.range 8, (some c ∈ exampleCfg.outs b ↔ some b ∈ exampleCfg.ins c) := by decide
    exact this b (List.mem_range.2 hb) c (List.mem_range.2 hc)

/-! ## Immediate dominators -/

/-- Each reachable block other than the start block has exactly the immediate dominator that `get_Block_idom` returns -/
theorem idom_right {g : Cfg} (h : g.Ok) {b : Nat} (hb : Reachable g.Edge g.start b) (hne : b ≠ g.start) :
    (∃ d, g.idom b = some d) ∧ ∀ d, g.idom b = some d ↔ IsIdom g.Edge g.start d b := by
  refine ⟨?_, fun d => idom_iff h hb hne⟩
  obtain ⟨i, hi⟩ := (num_reachable h).2 hb
  obtain ⟨d, _, h1, _⟩ := idom_some h hi hne
  exact ⟨d, h1⟩

/-- the start block and blocks that are not reachable have none -/
theorem idom_none {g : Cfg} (h : g.Ok) : g.idom g.start = none ∧ ∀ b, ¬ Reachable g.Edge g.start b → g.idom b = none :=
  ⟨idom_start h, fun _ hb => idom_unreachable h hb⟩

/-- the depth is the number of the blocks that dominate the block, and -1 if it is not reachable -/
theorem dom_depth {g : Cfg} (h : g.Ok) (b : Nat) :
    (Reachable g.Edge g.start b → ∃ S : List Nat, S.Nodup ∧ (∀ a, a ∈ S ↔ Dominates g.Edge g.start a b) ∧ g.depth b = S.length) ∧
    (¬ Reachable g.Edge g.start b → g.depth b = -1) := by
  constructor
  · intro hb
    obtain ⟨i, hi⟩ := (num_reachable h).2 hb
    have := block_depth (dfs_done h).1 (dfs_done h).2 (doms_ok h) hi
    rw [edge_eq] at this
    unfold Cfg.depth
    rw [hi]
    exact this
  · intro hb
    unfold Cfg.depth
    cases hn : g.dfs.num b with
    | none => rfl
    | some i => exact absurd ((num_reachable h).1 ⟨i, hn⟩) hb

example : (List.range 8).map exampleCfg.idom = [none, some 0, some 1, some 1, some 3, some 4, none, some 4] := by decide
example : (List.range 8).map exampleCfg.depth = [1, 2, 3, 3, 4, 5, -1, 5] := by decide
/-- the loop is left through 3 only, so 3 dominates the end block: the theorem applies to the example -/
example : IsIdom exampleCfg.Edge 0 3 4 := by
  have h4 : Reachable exampleCfg.Edge 0 4 :=
    ⟨[0, 1, 3, 4], .cons (Or.inl (by decide)) (.cons (Or.inl (by decide)) (.cons (Or.inl (by decide)) (.nil 4)))⟩
  exact ((idom_right exampleCfg_ok h4 (by decide)).2 3).1 (by decide)

/-! ## Questions about dominance -/

/-- for reachable blocks `block_dominates` answers right; the numbers of the tree are unsigned with 32 bits -/
theorem block_dominates_right {g : Cfg} (h : g.Ok) (hn : g.n ≤ 2 ^ 32) {a b : Nat} (ha : Reachable g.Edge g.start a) (hb : Reachable g.Edge g.start b) :
    g.dominates a b = true ↔ Dominates g.Edge g.start a b := dominates_block h hn ha hb

/-- `ir_deepest_common_dominator` finds the common dominator all the others dominate -/
theorem deepest_common_dominator {g : Cfg} (h : g.Ok) (hn : g.n ≤ 2 ^ 32) {b0 b1 : Nat} (h0 : Reachable g.Edge g.start b0)
    (h1 : Reachable g.Edge g.start b1) :
    ∃ d, g.deepestCommonDominator b0 b1 = some d ∧ Dominates g.Edge g.start d b0 ∧ Dominates g.Edge g.start d b1 ∧
      ∀ a, Dominates g.Edge g.start a b0 → Dominates g.Edge g.start a b1 → Dominates g.Edge g.start a d := deepest_spec h hn h0 h1

/-- a block that is not reachable is said to dominate the start block -/
theorem block_dominates_unreachable_wrong :
    ∃ g : Cfg, g.Ok ∧ ¬ Reachable g.Edge g.start 6 ∧ g.dominates 6 g.start = true ∧ ¬ Dominates g.Edge g.start 6 g.start := by
  refine ⟨exampleCfg, exampleCfg_ok, ?_, by decide, ?_⟩
  · intro hr
    obtain ⟨i, hi⟩ := (num_reachable exampleCfg_ok).2 hr
    have : exampleCfg.dfs.num 6 = none := by decide
    rw [this] at hi
    cases hi
  · intro hd
    have := hd _ (.nil _)
    exact absurd this (by decide)

example : exampleCfg.dominates 1 5 = true ∧ exampleCfg.dominates 2 5 = false ∧ exampleCfg.dominates 4 7 = true := by decide
example : exampleCfg.deepestCommonDominator 2 7 = some 1 ∧ exampleCfg.deepestCommonDominator 5 7 = some 4 := by decide

/-! ## Dominance frontiers -/

/-- the list of `ir_get_dominance_frontier` contains the blocks of the dominance frontier, if no control flow leads to the start block -/
theorem frontier_right {g : Cfg} (h : g.Ok) (hs : ∀ b, some g.start ∉ g.outs b) {b : Nat} (hb : Reachable g.Edge g.start b) (y : Nat) :
    y ∈ g.frontier b ↔ InFrontier g.Edge g.Flow g.start b y := by
  obtain ⟨i, hi⟩ := (num_reachable h).2 hb
  have hu := (dfs_done h).1.wf.used_le
  rw [show g.frontier b = g.df (g.n + 1) b from rfl, df_spec h (g.n + 1) b i hi (by omega)]
  constructor
  · exact fun h => h.1
  · refine fun hf => ⟨hf, ?_⟩
    rintro ⟨-, rfl⟩
    obtain ⟨p, -, hp, -⟩ := hf
    exact hs p hp

/-- with control flow to the start block, only the start block's own frontier is wrong: it does not contain the start block -/
theorem frontier_start {g : Cfg} (h : g.Ok) {b : Nat} (hb : Reachable g.Edge g.start b) (y : Nat) :
    y ∈ g.frontier b ↔ InFrontier g.Edge g.Flow g.start b y ∧ ¬ (b = g.start ∧ y = g.start) := by
  obtain ⟨i, hi⟩ := (num_reachable h).2 hb
  have hu := (dfs_done h).1.wf.used_le
  exact df_spec h (g.n + 1) b i hi (by omega) y

example : exampleCfg.frontier 2 = [1] ∧ exampleCfg.frontier 3 = [1] ∧ exampleCfg.frontier 7 = [7] ∧ exampleCfg.frontier 0 = [] := by decide
example : ∀ b, some exampleCfg.start ∉ exampleCfg.outs b := by
  intro b hb
  have hlt : b < 8 := by
    refine Nat.lt_of_not_le fun hle => ?_
    have : exampleCfg.outs b = [] := by simp [exampleCfg, List.getD, List.getElem?_eq_none (show [[some 1], [some 2, some 3], [some 1], [some 1, some 4], [some 5, some 7], [], [some 4], [some 7, none]].length ≤ b from hle)]
    rw [this] at hb
    cases hb
  have : ∀ b ∈ List.range 8, some exampleCfg.start ∉ exampleCfg.outs b := by decide
  exact this b (List.mem_range.2 hlt) hb

/-! ## Postdominators -/

/-- If each successor of a block that gets to the end block (or to a block that is kept alive) gets there, too, then no number is missing: the assertion
of `update_pdom_semi` holds -/
theorem postdom_defined {g : Cfg} (h : g.Ok) : g.pdomDefined = true ↔
    ∀ b c, Reachable g.BackEdge g.stop b → b ≠ g.stop → some c ∈ g.outs b → Reachable g.BackEdge g.stop c := pdomDefined_iff h

/-- Each block other than the end block from which the end block or a block that is kept alive can be reached has exactly the immediate postdominator
that `get_Block_ipostdom` returns -/
theorem ipostdom_right {g : Cfg} (h : g.Ok) (_hd : g.pdomDefined = true) {b : Nat} (hb : Reachable g.BackEdge g.stop b) (hne : b ≠ g.stop) :
    (∃ d, g.ipostdom b = some d) ∧ ∀ d, g.ipostdom b = some d ↔ IsIdom g.BackEdge g.stop d b := by
  obtain ⟨i, hi⟩ := (pnum_reachable h).2 hb
  obtain ⟨d, j, h1, -, -, h4⟩ := (block_idom (pdfs_done h).1 (pdfs_done h).2.1 (pdoms_ok h) hi).2 hne
  rw [backs_eq h] at h4
  have hd : g.ipostdom b = some d := by unfold Cfg.ipostdom; rw [hi]; exact h1
  refine ⟨⟨d, hd⟩, fun d' => ⟨fun hd' => ?_, fun hd' => ?_⟩⟩
  · rw [hd] at hd'; cases hd'; exact h4
  · rw [hd, isIdom_unique hb hd' h4]

/-- the end block has none -/
theorem ipostdom_stop {g : Cfg} (h : g.Ok) : g.ipostdom g.stop = none := by
  unfold Cfg.ipostdom
  rw [(pdfs_done h).2.1]
  exact (block_idom (pdfs_done h).1 (pdfs_done h).2.1 (pdoms_ok h) (pdfs_done h).2.1).1 rfl

/-- `block_postdominates` answers right -/
theorem block_postdominates_right {g : Cfg} (h : g.Ok) (_hd : g.pdomDefined = true) (hn : g.n ≤ 2 ^ 32) {a b : Nat}
    (ha : Reachable g.BackEdge g.stop a) (hb : Reachable g.BackEdge g.stop b) :
    g.postdominates a b = true ↔ Dominates g.BackEdge g.stop a b := by
  obtain ⟨i, hi⟩ := (pnum_reachable h).2 ha
  obtain ⟨j, hj⟩ := (pnum_reachable h).2 hb
  have := block_dominates (pdfs_done h).1 (pdfs_done h).2.1 (pdoms_ok h) hn hi hj
  rw [backs_eq h] at this
  unfold Cfg.postdominates Cfg.ptreeNum
  rw [hi, hj]
  exact this

example : exampleCfg.pdomDefined = true := by decide
/-- 7 never gets to 5 by control flow, it postdominates nothing but itself; 4 goes to 5 and to 7 -/
example : (List.range 8).map exampleCfg.ipostdom = [some 1, some 3, some 1, some 4, some 5, none, some 4, some 5] := by decide
example : exampleCfg.postdominates 4 1 = true ∧ exampleCfg.postdominates 7 4 = false ∧ exampleCfg.postdominates 5 7 = true := by decide
/-- without the block that is kept alive there is no number for 7 -/
example : ({ exampleCfg with keep := [], outs := fun b => (exampleCfg.outs b).filter Option.isSome } : Cfg).pdomDefined = false := by decide

end Verif.Props
