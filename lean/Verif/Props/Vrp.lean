import Verif.Lemmas.VrpRun
import Verif.Props.IrOptValue
/-!
# C77, C78, C79: the value range analysis
-/
namespace Verif.Props
open Verif.Spec Verif.Model Verif.Model.IrOpt Verif.Model.Vrp

variable {G : SsaGraph} {outs : Key → List Key} {order : List Key} {fuel : Nat} {s : State}

/-! ## C77 -/

/-- C77: if the analysis returns, then every value a node has at any time of any execution agrees with the bits that were found, is within
the range that was found, and is not within the antirange that was found.  There is no condition on the order of the nodes, on the out edges
or on the graph. -/
theorem vrp_sound (h : setVrpData G outs order fuel = some (some s)) {m : IMode} {n : Nat} {v : BitVec m.bits} (hv : G.Occurs m n v) :
    Describes (s m n).notSet (s m n).set v ∧
      (∀ b t, (s m n).range = .range b t → m.num b ≤ m.num v ∧ m.num v ≤ m.num t) ∧
      ∀ b t, (s m n).range = .anti b t → ¬ (m.num b ≤ m.num v ∧ m.num v ≤ m.num t) := by
  have I : Inv G s := setVrpData_inv (fun _ _ _ _ I h => I.update h) (Inv.initial G) h
  obtain ⟨h1, h2⟩ := I.desc m n v hv
  refine ⟨h1, fun b t hr => ?_, fun b t hr => ?_⟩
  · rw [hr] at h2; exact h2
  · rw [hr] at h2; exact h2

/-- the same for the values the nodes have in the states of an execution -/
theorem vrp_sound_state (h : setVrpData G outs order fuel = some (some s)) {b : Nat} {ρ : PEnv} (hρ : G.Reaches b ρ) {m : IMode} {n : Nat}
    {v : BitVec m.bits} (hv : ρ m n = some v) : Describes (s m n).notSet (s m n).set v :=
  (vrp_sound h (reaches_occurs hρ hv)).1

/-- Two of the ways old and new information are combined are wrong by themselves: from "not 1" and "not 5" follows "not 1 to 5", and from
"3 to 9" and "not 1 to 2" follows "2 to 9", which loses information.  The first is not reached, since an antirange is only combined with
itself (`vrp_antirange_kept`). -/
theorem vrp_merge_wrong : ¬ ∀ (x y : Range 8) (v : BitVec 8), x.Desc mBu v → y.Desc mBu v → (mergeRange false x y).Desc mBu v := by
  intro h
  have := h (.anti 1#8 1#8) (.anti 5#8 5#8) 3#8 (by unfold Range.Desc; decide) (by unfold Range.Desc; decide)
  exact this (by decide)

/-- an antirange does not change any more -/
theorem vrp_antirange_kept (h : setVrpData G outs order fuel = some (some s)) {m : IMode} {n : Nat} {s' : State} {b t : BitVec m.bits}
    (ha : (s m n).range = .anti b t) (hu : updateNode G s m n = some s') : (s' m n).range = .anti b t := by
  have I : Inv G s := setVrpData_inv (fun _ _ _ _ I h => I.update h) (Inv.initial G) h
  obtain ⟨new, ht, rfl⟩ := updateNode_inv hu
  have hc := compat I.kinds (I.notInt m n) ht
  rw [put_same, merge_range]
  rw [ha] at hc ⊢
  unfold Compat at hc
  rw [hc]
  exact mergeRange_anti _ _

/-! ## C78 -/

/-- C78: the relation `vrp_cmp` returns holds between all values of the two nodes -/
theorem vrp_cmp_sound (h : setVrpData G outs order fuel = some (some s)) {m : IMode} {l r : Nat} {x y : BitVec m.bits} (hx : G.Occurs m l x)
    (hy : G.Occurs m r y) : relHolds (vrpCmp s m l r) (m.num x) (m.num y) = true := by
  obtain ⟨bx, rx, -⟩ := vrp_sound h hx
  obtain ⟨bY, ry, -⟩ := vrp_sound h hy
  have htrue : relHolds Rel.true (m.num x) (m.num y) = true := by
    unfold relHolds
    rcases Int.lt_trichotomy (m.num x) (m.num y) with h | h | h
    · have h1 : ¬ m.num x = m.num y := by omega
      simp [h, h1, Rel.true]
    · simp [h, Rel.true]
    · have h1 : ¬ m.num x = m.num y := by omega
      simp [h, h1, Rel.true]
  unfold vrpCmp
  split
  · exact htrue
  · simp only
    split
    · next rel he =>
      split at he
      · next lb lt rb rt h1 h2 =>
        have := rx _ _ h1
        have := ry _ _ h2
        split at he
        · next hc =>
          cases he
          rw [cmp_less] at hc
          have hlt : m.num x < m.num y := by omega
          simp [relHolds, Rel.less, hlt]
        · split at he
          · next hc =>
            cases he
            rw [cmp_greater] at hc
            have hlt : m.num y < m.num x := by omega
            simp [relHolds, Rel.greater, hlt]
          · cases he
      · cases he
    · split
      · next hb =>
        have hne : m.num x ≠ m.num y := by
          intro he
          have he := num_inj.1 he
          subst he
          rcases hb with hb | hb
          · apply hb
            apply getLsbD_ext; intro i hi
            have h1 := bx i hi
            have h2 := bY i hi
            revert h1 h2
            simp only [BitVec.getLsbD_and, BitVec.getLsbD_not, BitVec.getLsbD_zero]
            simp only [hi, decide_true, Bool.true_and]
            generalize BitVec.getLsbD _ i = a1
            generalize BitVec.getLsbD _ i = a2
            generalize BitVec.getLsbD _ i = a3
            generalize BitVec.getLsbD _ i = a4
            generalize BitVec.getLsbD _ i = a5
            revert a1 a2 a3 a4 a5
            decide
          · apply hb
            apply getLsbD_ext; intro i hi
            have h1 := bx i hi
            have h2 := bY i hi
            revert h1 h2
            simp only [BitVec.getLsbD_and, BitVec.getLsbD_not, BitVec.getLsbD_zero]
            simp only [hi, decide_true, Bool.true_and]
            generalize BitVec.getLsbD _ i = a1
            generalize BitVec.getLsbD _ i = a2
            generalize BitVec.getLsbD _ i = a3
            generalize BitVec.getLsbD _ i = a4
            generalize BitVec.getLsbD _ i = a5
            revert a1 a2 a3 a4 a5
            decide
        rcases Int.lt_trichotomy (m.num x) (m.num y) with h | h | h
        · simp [relHolds, Rel.lessGreater, h]
        · exact absurd h hne
        · simp [relHolds, Rel.lessGreater, h]
      · exact htrue

/-- the value `computed_value` takes from the analysis is the only value the node ever has -/
theorem vrp_value_sound (h : setVrpData G outs order fuel = some (some s)) {m : IMode} {n : Nat} {c v : BitVec m.bits}
    (hc : vrpValue s m n = some c) (hv : G.Occurs m n v) : v = c := by
  have hd := (vrp_sound h hv).1
  unfold vrpValue at hc
  split at hc
  · next he =>
    cases hc
    rw [← he] at hd
    exact describes_eq hd
  · cases hc

/-! ## C79 -/

/-- C79: no assertion fails and the analysis ends.  `U` are the nodes of the graph; the out edges lead from nodes of the graph to nodes of
the graph. -/
theorem vrp_terminates (hG : GraphOk G) {U : List Key} (hU : ∀ k ∈ U, ∀ j ∈ outs k, j ∈ U) (ho : ∀ k ∈ order, k ∈ U) :
    ∃ N s, ∀ fuel, N ≤ fuel → setVrpData G outs order fuel = some (some s) := by
  obtain ⟨s1, q, h1, B, hq⟩ := firstPass_ends hG hU order (fun m _ => Attr.initial m.bits) [] [] (BitsInv.initial G) ho (by simp)
  have I : Inv G s1 := firstPass_inv (fun _ _ _ _ I h => I.update h) (Inv.initial G) h1
  obtain ⟨N, s, hN⟩ := workLoop_ends hG hU _ s1 q (Nat.le_refl _) I B hq
  refine ⟨N, s, fun fuel hf => ?_⟩
  simp only [setVrpData, h1]
  exact hN fuel hf

/-- no assertion fails, whatever the order and the out edges are -/
theorem vrp_no_failure (hG : GraphOk G) : setVrpData G outs order fuel ≠ some none := by
  have key : ∀ (fuel : Nat) (s : State) (q : List Key), BitsInv G s → workLoop G outs fuel s q ≠ some none := by
    intro fuel
    induction fuel with
    | zero => intro s q _; cases q <;> simp [workLoop]
    | succ fuel ih =>
      intro s q B
      cases q with
      | nil => simp [workLoop]
      | cons n q =>
        obtain ⟨s1, h1, B1⟩ := B.update hG n.1 n.2
        simp only [workLoop, h1]
        exact ih _ _ B1
  obtain ⟨s1, q, h1, B⟩ := firstPass_ends' (outs := outs) hG order _ [] [] (BitsInv.initial G)
  simp only [setVrpData, h1]
  exact key fuel s1 q B

/-- the result is complete: if the out edges of a node contain all its users, then no update of a node of the graph changes anything -/
theorem vrp_stable (hG : GraphOk G) (ho : ∀ k p, Depends G k p → k ∈ outs p) (h : setVrpData G outs order fuel = some (some s)) {m : IMode}
    {n : Nat} (hn : ⟨m, n⟩ ∈ order) : updateNode G s m n = some s := by
  obtain ⟨s1, q, h1, B⟩ := firstPass_ends' (outs := outs) hG order _ [] [] (BitsInv.initial G)
  simp only [setVrpData, h1] at h
  have I : Inv G s1 := firstPass_inv (fun _ _ _ _ I h => I.update h) (Inv.initial G) h1
  have h2 := firstPass_stable hG ho (Inv.initial G) (BitsInv.initial G) (by simp) h1
  exact workLoop_stable hG ho order I B (fun k hk => h2 k (Or.inl hk)) h ⟨m, n⟩ hn

/-! ## Example: a loop

`i = Phi(0, i + 2)` in block 1, `a = i & 15`, `c = Confirm(a <= 15)`, `d = c + 16`, `e = 0 & a`. -/

/-- nodes of mode `Bu`: 0 is `i`, 1 is `i + 2`, 2, 3, 5 and 7 are the constants 0, 2, 15 and 16, 4 is `a`, 6 is `c`, 8 is `d`, 9 is `e` -/
def vrpGraph : SsaGraph where
  node
    | ⟨false, 8, 32⟩, 0 => .phi [2, 1]
    | ⟨false, 8, 32⟩, 1 => .op (.add (.leaf mBu 0) (.leaf mBu 3))
    | ⟨false, 8, 32⟩, 2 => .op (.const 0#8)
    | ⟨false, 8, 32⟩, 3 => .op (.const 2#8)
    | ⟨false, 8, 32⟩, 4 => .op (.and (.leaf mBu 0) (.leaf mBu 5))
    | ⟨false, 8, 32⟩, 5 => .op (.const 15#8)
    | ⟨false, 8, 32⟩, 6 => .op (.confirm (.leaf mBu 4) Rel.lessEqual (.leaf mBu 5))
    | ⟨false, 8, 32⟩, 7 => .op (.const 16#8)
    | ⟨false, 8, 32⟩, 8 => .op (.add (.leaf mBu 6) (.leaf mBu 7))
    | ⟨false, 8, 32⟩, 9 => .op (.and (.leaf mBu 2) (.leaf mBu 4))
    | _, _ => .input
  blockOf
    | ⟨false, 8, 32⟩, n => if n = 2 ∨ n = 3 ∨ n = 5 ∨ n = 7 then 0 else 1
    | _, _ => 0
  preds
    | 1 => [0, 1]
    | _ => []
  xdef
    | 0 => .jmp
    | 1 => .other
    | _ => .bad
  xblock
    | 0 => 0
    | _ => 1
  start := 0

/-- the nodes in the order of a walk -/
def vrpOrder : List Key := [2, 0, 3, 1, 5, 4, 6, 7, 8, 9].map fun n => ⟨mBu, n⟩

/-- the users of the nodes -/
def vrpOuts (k : Key) : List Key :=
  match k with
  | ⟨⟨false, 8, 32⟩, n⟩ =>
    match n with
    | 0 => [⟨mBu, 1⟩, ⟨mBu, 4⟩]
    | 1 => [⟨mBu, 0⟩]
    | 2 => [⟨mBu, 0⟩, ⟨mBu, 9⟩]
    | 3 => [⟨mBu, 1⟩]
    | 4 => [⟨mBu, 6⟩, ⟨mBu, 9⟩]
    | 5 => [⟨mBu, 4⟩, ⟨mBu, 6⟩]
    | 6 => [⟨mBu, 8⟩]
    | 7 => [⟨mBu, 8⟩]
    | _ => []
  | _ => []

theorem vrpGraph_other {m : IMode} {n : Nat} (h : m ≠ mBu) : vrpGraph.node m n = .input := by
  unfold vrpGraph
  simp only
  split <;> first | rfl | exact absurd rfl h

theorem vrpGraph_ok : GraphOk vrpGraph where
  wf m n e h := by
    by_cases h1 : m = mBu
    · subst h1
      match n with
      | 0 => cases h
      | 1 => cases h; exact ⟨mBu_valid, mBu_valid⟩
      | 2 => cases h; exact mBu_valid
      | 3 => cases h; exact mBu_valid
      | 4 => cases h; exact ⟨mBu_valid, mBu_valid⟩
      | 5 => cases h; exact mBu_valid
      | 6 => cases h; exact ⟨mBu_valid, mBu_valid⟩
      | 7 => cases h; exact mBu_valid
      | 8 => cases h; exact ⟨mBu_valid, mBu_valid⟩
      | 9 => cases h; exact ⟨mBu_valid, mBu_valid⟩
      | n + 10 => cases h
    · rw [vrpGraph_other h1] at h; cases h
  count m n e h := by
    by_cases h1 : m = mBu
    · subst h1
      match n with
      | 0 => cases h
      | 1 => cases h; trivial
      | 2 => cases h; trivial
      | 3 => cases h; trivial
      | 4 => cases h; trivial
      | 5 => cases h; trivial
      | 6 => cases h; trivial
      | 7 => cases h; trivial
      | 8 => cases h; trivial
      | 9 => cases h; trivial
      | n + 10 => cases h
    · rw [vrpGraph_other h1] at h; cases h
  phi m n h := by
    by_cases h1 : m = mBu
    · subst h1
      match n with
      | 0 => cases h
      | 1 | 2 | 3 | 4 | 5 | 6 | 7 | 8 | 9 => cases h
      | n + 10 => cases h
    · rw [vrpGraph_other h1] at h; cases h

theorem vrpOuts_users (k p : Key) (h : Depends vrpGraph k p) : k ∈ vrpOuts p := by
  obtain ⟨m, n⟩ := k
  obtain ⟨m', n'⟩ := p
  unfold Depends at h
  by_cases h1 : m = mBu
  · subst h1
    match n with
    | 0 =>
      obtain ⟨h1, h2⟩ : m' = mBu ∧ n' ∈ [2, 1] := h
      subst h1
      rcases (by simpa using h2 : n' = 2 ∨ n' = 1) with rfl | rfl <;> decide
    | 1 => rcases (show (mBu = m' ∧ 0 = n') ∨ (mBu = m' ∧ 3 = n') from h) with ⟨rfl, rfl⟩ | ⟨rfl, rfl⟩ <;> decide
    | 2 | 3 | 5 | 7 => exact (show False from h).elim
    | 4 => rcases (show (mBu = m' ∧ 0 = n') ∨ (mBu = m' ∧ 5 = n') from h) with ⟨rfl, rfl⟩ | ⟨rfl, rfl⟩ <;> decide
    | 6 => rcases (show (mBu = m' ∧ 4 = n') ∨ (mBu = m' ∧ 5 = n') from h) with ⟨rfl, rfl⟩ | ⟨rfl, rfl⟩ <;> decide
    | 8 => rcases (show (mBu = m' ∧ 6 = n') ∨ (mBu = m' ∧ 7 = n') from h) with ⟨rfl, rfl⟩ | ⟨rfl, rfl⟩ <;> decide
    | 9 => rcases (show (mBu = m' ∧ 2 = n') ∨ (mBu = m' ∧ 4 = n') from h) with ⟨rfl, rfl⟩ | ⟨rfl, rfl⟩ <;> decide
    | n + 10 => exact (show False from h).elim
  · simp only [vrpGraph_other h1] at h

/-- the analysis of the loop ends after a few steps, finds the ranges of `c` and `d`, that `c` is less than `d`, and the value of `e` -/
example : (setVrpData vrpGraph vrpOuts vrpOrder 10).map (fun o => o.map fun s => decide
      ((s mBu 6).range = .range (0#8 : BitVec mBu.bits) 15#8 ∧ (s mBu 8).range = .range (16#8 : BitVec mBu.bits) 31#8 ∧ (s mBu 0).range = .varying ∧
        (s mBu 4).notSet = 15#8 ∧ vrpCmp s mBu 6 8 = Rel.less ∧ vrpValue s mBu 9 = some 0#8)) =
    some (some true) := by decide +kernel

/-- the hypotheses of `vrp_terminates` and `vrp_stable` hold for the loop -/
example : (∃ N s, ∀ fuel, N ≤ fuel → setVrpData vrpGraph vrpOuts vrpOrder fuel = some (some s)) ∧
    ∀ fuel s, setVrpData vrpGraph vrpOuts vrpOrder fuel = some (some s) → updateNode vrpGraph s mBu 8 = some s :=
  ⟨vrp_terminates vrpGraph_ok (U := vrpOrder) (by decide +kernel) (by simp), fun _ _ h => vrp_stable vrpGraph_ok vrpOuts_users h (by decide)⟩

/-- node 3 has the value 2 when the loop is entered, so there are values the theorems speak about -/
example : vrpGraph.Occurs mBu 3 2#8 :=
  ⟨_, _, _, fun _ _ => 0, .start, .op (env := fun _ _ => 0) (e := .const (m := mBu) 2#8) rfl rfl (fun _ _ h => False.elim h) mBu_valid⟩

end Verif.Props
