import Verif.Lemmas.LowerModeB
/-!
# Lowering of boolean values to integers (C122)
-/
namespace Verif.Props.LowerModeB

open Verif.Spec.ModeB Verif.Model.LowerModeB Verif.Lemmas.LowerModeB

/-- a graph of `N` nodes with the equations of its boolean nodes; every Phi is entered by a way it has an operand for -/
structure Runs (N nblk : Nat) (g : Nat → Node) (e : Nat → Nat) (V : Bool → Nat → Bool) : Prop where
  eqs : ∀ n, n < N → BoolEq e V (g n) n
  ins : ∀ n, n < N → ∀ x ∈ (g n).ins, x < N
  compl : ∀ n, n < N → Complete (g n)
  way : ∀ n k, n < N → (g n).op = .phi k → e (g n).blk < k
  blk : ∀ n, (g n).blk < nblk

theorem init_inv {w N nblk : Nat} {g : Nat → Node} {e : Nat → Nat} {V : Bool → Nat → Bool} (h : Runs N nblk g e V) (W : Bool → Nat → BitVec w) :
    Inv N g e V (St.init g N nblk) W :=
  ⟨Nat.le_refl _, fun _ _ => ⟨rfl, rfl⟩, fun _ _ _ _ => rfl, h.blk, (fun _ _ h => nomatch h), (fun r h h' => absurd h (by have : r < N := h'; omega)),
    (fun r h h' => absurd h (by have : r < N := h'; omega)), (fun r h h' => absurd h (by have : r < N := h'; omega))⟩

/-- **The lowered nodes compute 1 for true and 0 for false**, whatever roots are lowered one after the other, in graphs with cycles through Phis as well: the
old nodes stay, every new Phi is complete and belongs to an old one, and whatever values satisfy the equations of the new nodes, with the value of the old Phi in
each new one before the step, the roots have the right value before and after it.  (Termination, and that uses stay below definitions, are not part of this: the
latter is false, `use_above_definition`.) -/
theorem mode_b_values_partial {w N nblk : Nat} {g : Nat → Node} {e : Nat → Nat} {V : Bool → Nat → Bool} (h : Runs N nblk g e V) {f : Nat} {ns rs : List Nat}
    {s : St} (hns : ∀ x ∈ ns, x < N) (hl : lowerList (lower f) ns (St.init g N nblk) = some (rs, s)) :
    (∀ n, n < N → (s.node n).op = (g n).op ∧ (s.node n).ins = (g n).ins) ∧ rs.length = ns.length ∧
    (∀ r, N ≤ r → r < s.cnt → Complete (s.node r)) ∧
    ∃ φ : Nat → Nat, (∀ r k, N ≤ r → r < s.cnt → (s.node r).op = .phi k → φ r < N ∧ (g (φ r)).op = .phi k) ∧
      ∀ W : Bool → Nat → BitVec w, (∀ r, N ≤ r → r < s.cnt → IntEq e s.preds V W (s.node r) r) →
        (∀ r k, N ≤ r → r < s.cnt → (s.node r).op = .phi k → W false r = if V false (φ r) then 1 else 0) →
        ∀ (i x r : Nat), ns[i]? = some x → rs[i]? = some r → ∀ p, W p r = if V p x then 1 else 0 := by
  have hg : ∀ n, n < N → BoolEq e V (g n) n ∧ (∀ x ∈ (g n).ins, (g n).op ≠ .cmp → x < N) ∧ Complete (g n) :=
    fun n hn => ⟨h.eqs n hn, fun x hx _ => h.ins n hn x hx, h.compl n hn⟩
  obtain ⟨W0, hI, hE, hlen, hrep⟩ := lowerList_good (w := w) hg f ns _ (fun _ _ => 0) rs s hns (init_inv h _) hl
  refine ⟨hI.old, hlen, fun r hr hr' => hE.compl r hr hr', ?_⟩
  have hch : ∀ r, ∃ m, ∀ k, N ≤ r → r < s.cnt → (s.node r).op = .phi k → m < N ∧ (g m).op = .phi k ∧ Rep V W0 m r ∧ s.preds (s.node r).blk = .orig (g m).blk := by
    intro r
    by_cases hc : N ≤ r ∧ r < s.cnt ∧ ∃ k, (s.node r).op = .phi k
    · obtain ⟨h1, h2, k, hk⟩ := hc
      obtain ⟨m, a⟩ := (hI.shape r h1 h2).1 k hk
      refine ⟨m, fun k' _ _ hk' => ?_⟩
      rw [hk] at hk'
      cases hk'
      exact a
    · exact ⟨0, fun k h1 h2 hk => absurd ⟨h1, h2, k, hk⟩ hc⟩
  refine ⟨fun r => (hch r).choose, fun r k h1 h2 hk => ?_, ?_⟩
  · have := (hch r).choose_spec k h1 h2 hk
    exact ⟨this.1, this.2.1⟩
  intro W hW hbefore
  have hf : ∀ r, N ≤ r → r < s.cnt → W false r = W0 false r := by
    refine determined hI false hW (fun r k h1 h2 hk => ?_)
    rw [hbefore r k h1 h2 hk, ((hch r).choose_spec k h1 h2 hk).2.2.1 false]
  have ht : ∀ r, N ≤ r → r < s.cnt → W true r = W0 true r := by
    refine determined hI true hW (fun r k h1 h2 hk => ?_)
    obtain ⟨m1, m2, _, m4⟩ := (hch r).choose_spec k h1 h2 hk
    have hw := h.way _ k m1 m2
    have hc : (s.node r).ins.length = k := hE.compl r h1 h2 k hk
    have h0 := (hI.eqs r h1 h2).1
    have hlt := (hI.eqs r h1 h2).2
    have hnew := hI.new r h1 h2
    have hw' := hW r h1 h2
    generalize (hch r).choose = m at m1 m2 m4 hw
    generalize s.node r = nd at hk hc h0 hlt hnew hw' m4
    obtain ⟨op, ins, b⟩ := nd
    dsimp only at hk hc hlt hnew m4
    subst hk
    have hx : ins[e (g m).blk]? = some (ins[e (g m).blk]'(by omega)) := List.getElem?_eq_getElem _
    have hm := List.mem_of_getElem? hx
    rw [h0 _ _ m4 hx, hw' _ _ m4 hx]
    exact hf _ (hnew (by simp) _ hm) (hlt _ hm)
  intro i x r hx hr p
  obtain ⟨h1, h2, h3⟩ := hrep i x r hx hr
  cases p
  · rw [hf r h1 h2]; exact h3 false
  · rw [ht r h1 h2]; exact h3 true

/-- **There are such values**: the equations of the new nodes do not contradict each other. -/
theorem mode_b_values_exist {w N nblk : Nat} {g : Nat → Node} {e : Nat → Nat} {V : Bool → Nat → Bool} (h : Runs N nblk g e V) {f : Nat} {ns rs : List Nat}
    {s : St} (hns : ∀ x ∈ ns, x < N) (hl : lowerList (lower f) ns (St.init g N nblk) = some (rs, s)) :
    ∃ W : Bool → Nat → BitVec w, (∀ r, N ≤ r → r < s.cnt → IntEq e s.preds V W (s.node r) r) ∧
      ∀ r k, N ≤ r → r < s.cnt → (s.node r).op = .phi k → ∃ n, n < N ∧ (g n).op = .phi k ∧ Rep V W n r := by
  have hg : ∀ n, n < N → BoolEq e V (g n) n ∧ (∀ x ∈ (g n).ins, (g n).op ≠ .cmp → x < N) ∧ Complete (g n) :=
    fun n hn => ⟨h.eqs n hn, fun x hx _ => h.ins n hn x hx, h.compl n hn⟩
  obtain ⟨W0, hI, _, _, _⟩ := lowerList_good (w := w) hg f ns _ (fun _ _ => 0) rs s hns (init_inv h _) hl
  refine ⟨W0, fun r hr hr' => (hI.eqs r hr hr').1, fun r k h1 h2 hk => ?_⟩
  obtain ⟨n, a, b, c, _⟩ := (hI.shape r h1 h2).1 k hk
  exact ⟨n, a, b, c⟩

/-- **The comparison with 0 gives the boolean back** (`convert_to_modeb`, ir/lower/lower_mode_b.c:48-55). -/
theorem compare_gives_boolean {w : Nat} (hw : 0 < w) {V : Bool → Nat → Bool} {W : Bool → Nat → BitVec w} {n r : Nat} (h : Rep V W n r) (p : Bool) :
    (W p r ≠ 0) ↔ V p n = true := by
  rw [h p]
  have : (1 : BitVec w) ≠ 0 := by
    intro hh
    have := congrArg BitVec.toNat hh
    have h2 : 1 < 2 ^ w := Nat.one_lt_two_pow (by omega)
    simp [Nat.mod_eq_of_lt h2] at this
  cases hv : V p n
  · simp
  · simp only [if_true]
    exact ⟨fun _ => trivial, fun _ => this⟩

/-! ## Cases -/

/-- a loop (block 1): `p = Phi(true, c2)`, `n = p & c1`, `m = n ? .. : ..` (an integer), `c2 = (m ...)` -/
def loop : Nat → Node
  | 0 => ⟨.phi 2, [5, 4], 1⟩
  | 1 => ⟨.cmp, [], 1⟩
  | 2 => ⟨.and, [0, 1], 1⟩
  | 3 => ⟨.other, [2], 1⟩
  | 4 => ⟨.cmp, [3], 1⟩
  | 5 => ⟨.const true, [], 0⟩
  | _ => ⟨.other, [], 0⟩

/-- the equations can be met, here on the way around the loop -/
example : Runs 6 2 loop (fun _ => 1) (fun p n => if p then n = 0 ∨ n = 1 ∨ n = 2 ∨ n = 5 else True) where
  eqs n hn := by
    match n, hn with
    | 0, _ => intro x hx; simp [loop] at hx; subst hx; decide
    | 1, _ => trivial
    | 2, _ => intro p; cases p <;> simp
    | 3, _ => trivial
    | 4, _ => trivial
    | 5, _ => intro p; cases p <;> simp
  ins n hn := by
    match n, hn with
    | 0, _ | 1, _ | 2, _ | 3, _ | 4, _ | 5, _ => decide
  compl n hn := by
    match n, hn with
    | 0, _ => intro k hk; cases hk; rfl
    | 1, _ | 2, _ | 3, _ | 4, _ | 5, _ => intro k hk; cases hk
  way n k hn hk := by
    match n, hn with
    | 0, _ => cases hk; decide
    | 1, _ | 2, _ | 3, _ | 4, _ | 5, _ => cases hk
  blk n := by
    match n with
    | 0 | 1 | 2 | 3 | 4 | 5 => decide
    | n + 6 => exact (by decide : 0 < 2)

/-- the And of the loop can be lowered -/
example : (lowerList (lower 10) [2] (St.init loop 6 2)).map (·.1) = some [10] := by decide +kernel

/-- **A use above its definition**: in the loop the lowering of the selector of the Mux `m` splits the block at `c2`; `m` goes to the upper block, but the lowered
And is put into the lower one (`block` in ir/lower/lower_mode_b.c:100 is read before the operands are lowered), which is entered only from the upper one. -/
theorem use_above_definition : ∃ s, root 10 true 3 0 (St.init loop 6 2) = some s ∧ ∃ x ∈ (s.node 3).ins, s.preds (s.node x).blk = .below (s.node 3).blk ∧
    (s.node x).blk ≠ (s.node 3).blk := by
  refine ⟨_, rfl, 11, ?_⟩
  decide +kernel

end Verif.Props.LowerModeB
