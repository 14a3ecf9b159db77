import Verif.Lemmas.Heights
/-!
# Properties of heights (C101)
-/
namespace Verif.Props.Heights
open Verif.Spec.Heights Verif.Model.Heights

/-- the heights of the nodes of a block are right, and the marks are those of earlier searches -/
structure Inv (g : Graph) (h : State) (b : Nat) : Prop where
  bounded : h.Bounded g b
  right : ∀ x, g.isBlock x = false → g.block x = b → ∃ d, h.data x = some d ∧ g.Height x d.height

theorem inv_of_block {g : Graph} {nodes : Nat → List Nat} {h h' : State} {b bl : Nat} (hi : Inv g h b) (hne : b ≠ bl) (hv : h.visited ≤ h'.visited)
    (hd : ∀ x, g.block x ≠ bl → h'.data x = h.data x) : Inv g h' b where
  bounded := fun y d hy e => Nat.le_trans (hi.bounded y d hy (by rw [← hd y (by rw [hy]; exact hne)]; exact e)) hv
  right := fun x hx hb => by
    rw [hd x (by rw [hb]; exact hne)]
    exact hi.right x hx hb

theorem blocks_ok {g : Graph} (hg : g.Ok) {nodes : Nat → List Nat} {fuel : Nat} (hf : g.n ≤ fuel) (hnodes : ∀ b x, g.isBlock x = false → (x ∈ nodes b ↔ g.block x = b))
    (hnb : ∀ b x, x ∈ nodes b → g.isBlock x = false) : ∀ bs h, (∀ b, h.Bounded g b) →
    ∃ h', computeBlocks g fuel nodes h bs = some h' ∧ (∀ b ∈ bs, Inv g h' b) ∧ (∀ b, h'.Bounded g b) ∧ ∀ b, Inv g h b → Inv g h' b := by
  intro bs
  induction bs with
  | nil => intro h hb; exact ⟨h, rfl, fun b hb => (nomatch hb), hb, fun b hi => hi⟩
  | cons bl bs ih =>
    intro h hb
    obtain ⟨h1, e1, e2, e3, e4, e5⟩ := computeBlock_ok hg (fun x hx => (hnodes bl x (hnb bl x hx)).1 hx) hf (hb bl)
    have i1 : Inv g h1 bl := ⟨e2, fun x hx hxb => e4 x ((hnodes bl x hx).2 hxb)⟩
    have i2 : ∀ b, Inv g h b → Inv g h1 b := fun b hi => by
      by_cases e : b = bl
      · exact e ▸ i1
      · exact inv_of_block (nodes := nodes) hi e (by omega) e5
    have i3 : ∀ b, h1.Bounded g b := fun b => by
      by_cases e : b = bl
      · exact e ▸ e2
      · intro y d hy hd
        rw [e5 y (by rw [hy]; exact e)] at hd
        have := hb b y d hy hd
        omega
    obtain ⟨h2, f1, f2, f3, f4⟩ := ih h1 i3
    refine ⟨h2, ?_, fun b hb' => ?_, f3, fun b hi => f4 b (i2 b hi)⟩
    · unfold computeBlocks
      rw [e1]
      exact f1
    · rcases List.mem_cons.1 hb' with rfl | hb'
      · exact f4 _ i1
      · exact f2 b hb'

/-- `heights_new` computes the length of the longest chain of users in its block for each node -/
theorem heights_exact {g : Graph} (hg : g.Ok) {nodes : Nat → List Nat} {fuel : Nat} (hf : g.n ≤ fuel) (hnodes : ∀ b x, g.isBlock x = false → (x ∈ nodes b ↔ g.block x = b))
    (hnb : ∀ b x, x ∈ nodes b → g.isBlock x = false) (blocks : List Nat) : ∃ h, new g fuel nodes blocks = some h ∧ ∀ b ∈ blocks, Inv g h b := by
  obtain ⟨h, h1, h2, -⟩ := blocks_ok hg hf hnodes hnb blocks ⟨fun _ => none, 0⟩ fun b y d _ hd => (nomatch hd)
  exact ⟨h, h1, h2⟩

theorem chain_le {g : Graph} {rank : Nat → Nat} (hrank : ∀ x d, g.Use x d → rank d < rank x) {x k : Nat} (h : g.Chain x k) : k ≤ rank x := by
  induction h with
  | nil => omega
  | cons hu _ ih => have := hrank _ _ hu; omega

/-- `heights_reachable_in_block` answers whether one node depends on the other inside their block.  What is needed for the next question still holds. -/
theorem reachable_exact {g : Graph} (hg : g.Ok) {h : State} {n m : Nat} (hi : Inv g h (g.block m)) {fuel : Nat} (hf : g.n < fuel) (hn : g.isBlock n = false) (hm : g.isBlock m = false)
    (hb : g.block n = g.block m) :
    ∃ r h', reachable g fuel h n m = some (r, h') ∧ (r = true ↔ g.Reach m n) ∧ ∀ b, Inv g h b → Inv g h' b := by
  obtain ⟨rank, hrn, hrank⟩ := hg.acyclic
  have hnb : ∀ x, g.block x = g.block m → g.isBlock x = false := fun x hx => Bool.eq_false_iff.2 fun e => hg.blocks x m e hm hx
  obtain ⟨dn, hdn, hhn⟩ := hi.right n hn hb
  obtain ⟨dm, hdm, hhm⟩ := hi.right m hm rfl
  have hr : ∀ y, g.block y = g.block m → h.Right g y := fun y hy => hi.right y (hnb y hy) hy
  unfold reachable
  rw [hdn, hdm]
  simp only
  by_cases c : dn.height ≤ dm.height
  · rw [if_pos c]
    have hbd : ∀ b, h.Bounded g b → State.Bounded { h with visited := h.visited + 1 } g b := fun b hb y d hy hd => Nat.le_succ_of_le (hb y d hy hd)
    obtain ⟨r, h', e1, e2, e3, -⟩ := search_ok hg hm fuel { h with visited := h.visited + 1 } n (hbd _ hi.bounded) hr (by omega)
      (fun _ j k hj hk => by
        have := chain_le hrank hk.1
        have := hrn m
        omega)
      (fun _ y j k ⟨d, hd, hv⟩ hy => by
        have := hi.bounded y d hy hd
        simp only at hv
        omega)
    refine ⟨r, h', e1, e2, fun b hib => ⟨e3.bounded (hbd b hib.bounded), fun x hx hxb => ?_⟩⟩
    exact e3.right (hib.right x hx hxb)
  · rw [if_neg c]
    refine ⟨false, h, rfl, ⟨fun e => (nomatch e), fun e => ?_⟩, fun b hib => hib⟩
    exact absurd (reach_height hg hm hr e _ _ hhn hhm) c

/-- a list of questions, each with its answer -/
def ask (g : Graph) (fuel : Nat) : State → List (Nat × Nat) → Option (List Bool)
  | _, [] => some []
  | h, q :: qs =>
    match reachable g fuel h q.1 q.2 with
    | none => none
    | some (r, h) => (ask g fuel h qs).map (r :: ·)

/-- after `heights_new` all questions about nodes of one block are answered right, in any order and number -/
theorem heights_queries {g : Graph} (hg : g.Ok) {nodes : Nat → List Nat} {fuel : Nat} (hf : g.n < fuel) (hnodes : ∀ b x, g.isBlock x = false → (x ∈ nodes b ↔ g.block x = b))
    (hnb : ∀ b x, x ∈ nodes b → g.isBlock x = false) (blocks : List Nat) (qs : List (Nat × Nat))
    (hqs : ∀ q ∈ qs, g.isBlock q.1 = false ∧ g.isBlock q.2 = false ∧ g.block q.1 = g.block q.2 ∧ g.block q.2 ∈ blocks) :
    ∃ h rs, new g fuel nodes blocks = some h ∧ ask g fuel h qs = some rs ∧ rs.length = qs.length ∧ ∀ p ∈ qs.zip rs, p.2 = true ↔ g.Reach p.1.2 p.1.1 := by
  obtain ⟨h, h1, h2⟩ := heights_exact hg (Nat.le_of_lt hf) hnodes hnb blocks
  have : ∀ h, (∀ b ∈ blocks, Inv g h b) → ∃ rs, ask g fuel h qs = some rs ∧ rs.length = qs.length ∧ ∀ p ∈ qs.zip rs, p.2 = true ↔ g.Reach p.1.2 p.1.1 := by
    clear h1 h2 h
    induction qs with
    | nil => intro h _; exact ⟨[], rfl, rfl, fun p hp => (nomatch hp)⟩
    | cons q qs ih =>
      intro h hi
      obtain ⟨q1, q2, q3, q4⟩ := hqs q (List.mem_cons_self ..)
      obtain ⟨r, h', e1, e2, e3⟩ := reachable_exact hg (hi _ q4) hf q1 q2 q3
      obtain ⟨rs, f1, f2⟩ := ih (fun q hq => hqs q (List.mem_cons_of_mem _ hq)) h' fun b hb => e3 b (hi b hb)
      refine ⟨r :: rs, ?_, by simp [f2.1], fun p hp => ?_⟩
      · unfold ask
        rw [e1]
        simp only
        rw [f1]
        rfl
      · rw [List.zip_cons_cons] at hp
        rcases List.mem_cons.1 hp with rfl | hp
        · exact e2
        · exact f2.2 p hp
  obtain ⟨rs, r1, r2⟩ := this h h2
  exact ⟨h, rs, h1, r1, r2⟩

/-- After `heights_recompute_block` the heights of the block are right, whatever they were before, and so are the answers for it.  What is missing: the
answers for other blocks, see `recompute_wrong`. -/
theorem recompute_partial {g : Graph} (hg : g.Ok) {nodes : Nat → List Nat} {fuel : Nat} (hf : g.n ≤ fuel) {bl : Nat} (hnodes : ∀ x, g.isBlock x = false → (x ∈ nodes bl ↔ g.block x = bl))
    (hnb : ∀ x, x ∈ nodes bl → g.isBlock x = false) (hbl : ∀ x, g.isBlock x = true → g.block x ≠ bl) (h : State) :
    ∃ h', recompute g fuel nodes h bl = some h' ∧ Inv g h' bl ∧ ∀ x, g.isBlock x = false → g.block x ≠ bl → h'.data x = h.data x := by
  have zero : ∀ (xs : List Nat) (h : State) x, (x ∈ xs → (xs.foldl (fun h x => (h.get x).2.put x ⟨0, 0⟩) h).data x = some ⟨0, 0⟩) ∧
      (x ∉ xs → (xs.foldl (fun h x => (h.get x).2.put x ⟨0, 0⟩) h).data x = h.data x) := by
    intro xs
    induction xs with
    | nil => intro h x; exact ⟨fun e => (nomatch e), fun _ => rfl⟩
    | cons y xs ih =>
      intro h x
      have hput : ((h.get y).2.put y ⟨0, 0⟩).data x = if x = y then some ⟨0, 0⟩ else h.data x := by
        by_cases e : x = y
        · subst e
          rw [put_same, if_pos rfl]
        · rw [put_ne _ _ e, if_neg e]
          unfold State.get
          cases h.data y with
          | none => exact put_ne _ _ e
          | some d => rfl
      rw [List.foldl_cons]
      constructor
      · intro hx
        by_cases e : x ∈ xs
        · exact (ih _ x).1 e
        · rw [(ih _ x).2 e, hput, if_pos ((List.mem_cons.1 hx).resolve_right e)]
      · intro hx
        rw [List.mem_cons, not_or] at hx
        rw [(ih _ x).2 hx.2, hput, if_neg hx.1]
  unfold recompute
  obtain ⟨h', e1, e2, e3, e4, e5⟩ := computeBlock_ok (nodes := nodes) (fuel := fuel) hg (bl := bl) (fun x hx => (hnodes x (hnb x hx)).1 hx) hf
    (h := { (nodes bl).foldl (fun h x => (h.get x).2.put x ⟨0, 0⟩) h with visited := 0 }) (fun y d hy hd => by
      have hyb : g.isBlock y = false := Bool.eq_false_iff.2 fun e => hbl y e hy
      have := (zero (nodes bl) h y).1 ((hnodes y hyb).2 hy)
      simp only at hd
      rw [this] at hd
      obtain rfl := Option.some.inj hd
      exact Nat.le_refl _)
  refine ⟨h', e1, ⟨e2, fun x hx hxb => e4 x ((hnodes x hx).2 hxb)⟩, fun x hx hxb => ?_⟩
  rw [e5 x hxb]
  exact (zero (nodes bl) h x).2 fun hm => hxb ((hnodes x hx).1 hm)

/-! ## Examples -/

/-- Block 0 has `1`, `2` that uses `1`, and `3` that uses `2` and `1`; block 10 has `11` and `12` that uses `11`. -/
def small : Graph where
  ins := fun x => if x = 2 then [1] else if x = 3 then [2, 1] else if x = 12 then [11] else []
  users := fun x => if x = 1 then [3, 2] else if x = 2 then [3] else if x = 11 then [12] else []
  block := fun x => if x = 1 ∨ x = 2 ∨ x = 3 then 0 else if x = 11 ∨ x = 12 then 10 else 100
  phi := fun _ => false
  isBlock := fun x => !(decide (x = 1 ∨ x = 2 ∨ x = 3) || decide (x = 11 ∨ x = 12))
  n := 5

theorem small_ok : small.Ok where
  edge := by
    intro x d
    simp only [small]
    split <;> split <;> (try split) <;> (try split) <;> (try split) <;> (try split) <;> simp <;> omega
  blocks := by
    intro x y h1 h2
    simp only [small, Bool.not_eq_true', Bool.or_eq_false_iff, decide_eq_false_iff_not, Bool.not_eq_false', Bool.or_eq_true, decide_eq_true_eq] at h1 h2
    simp only [small, if_neg h1.1, if_neg h1.2]
    split
    · decide
    · rw [if_pos (h2.resolve_left ‹_›)]; decide
  acyclic := by
    refine ⟨fun x => if x = 1 then 2 else if x = 2 then 1 else if x = 11 then 1 else 0, fun x => ?_, fun x d h => ?_⟩
    · show (if x = 1 then 2 else if x = 2 then 1 else if x = 11 then 1 else 0) < 5
      split
      · omega
      · split
        · omega
        · split <;> omega
    · obtain ⟨h1, -⟩ := h
      simp only [small] at h1
      split at h1
      · simp at h1; rcases h1 with rfl | rfl <;> simp [*]
      · split at h1
        · simp at h1; subst h1; simp [*]
        · split at h1
          · simp at h1; subst h1; simp [*]
          · simp at h1

def smallNodes : Nat → List Nat := fun b => if b = 0 then [3, 1, 2] else if b = 10 then [12, 11] else []

/-- the nodes of the blocks -/
example : (∀ b x, small.isBlock x = false → (x ∈ smallNodes b ↔ small.block x = b)) ∧ ∀ b x, x ∈ smallNodes b → small.isBlock x = false := by
  constructor
  · intro b x hx
    simp only [small, Bool.not_eq_false', Bool.or_eq_true, decide_eq_true_eq] at hx
    by_cases h0 : b = 0
    · subst h0
      rcases hx with (rfl | rfl | rfl) | (rfl | rfl) <;> decide
    · by_cases h1 : b = 10
      · subst h1
        rcases hx with (rfl | rfl | rfl) | (rfl | rfl) <;> decide
      · rcases hx with (rfl | rfl | rfl) | (rfl | rfl) <;> simp [small, smallNodes, h0, h1, Ne.symm h0, Ne.symm h1]
  · intro b x hx
    simp only [smallNodes] at hx
    split at hx
    · simp only [List.mem_cons, List.not_mem_nil, or_false] at hx
      rcases hx with rfl | rfl | rfl <;> decide
    · split at hx
      · simp only [List.mem_cons, List.not_mem_nil, or_false] at hx
        rcases hx with rfl | rfl <;> decide
      · cases hx

example : ((new small 6 smallNodes [0, 10]).bind fun h => ask small 6 h [(3, 1), (1, 3), (3, 1), (2, 1), (2, 3), (12, 11), (12, 11)]) =
    some [true, false, true, true, false, true, true] := by decide +kernel

example : (new small 6 smallNodes [0, 10]).map (fun h => [1, 2, 3, 11, 12].map h.data) =
    some [some ⟨2, 1⟩, some ⟨1, 1⟩, some ⟨0, 1⟩, some ⟨1, 2⟩, some ⟨0, 2⟩] := by decide +kernel

/-- **Recomputing another block.**  `heights_recompute_block` sets the counter of searches back, so nodes of other blocks look as if the search had
already been there: `12` uses `11`, but the answer is no. -/
theorem recompute_wrong : small.Ok ∧ small.Reach 11 12 ∧
    ((new small 6 smallNodes [0, 10]).bind fun h => ask small 6 h [(12, 11)]) = some [true] ∧
    ((new small 6 smallNodes [0, 10]).bind fun h => (recompute small 6 smallNodes h 0).bind fun h => ask small 6 h [(12, 11)]) = some [false] := by
  refine ⟨small_ok, .step rfl rfl (List.mem_singleton.2 rfl) .refl, by decide +kernel, by decide +kernel⟩

end Verif.Props.Heights
