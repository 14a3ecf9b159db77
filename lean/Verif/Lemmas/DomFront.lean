import Verif.Lemmas.DomBlocks
/-!
# Common dominators and dominance frontiers
-/
namespace Verif.Model.Dom
open Verif.Spec.DomTheory Verif.Spec

variable {g : Cfg}

theorem num_reachable (h : g.Ok) {b : Nat} : (∃ i, g.dfs.num b = some i) ↔ Reachable g.Edge g.start b := by
  have := num_iff_reachable (dfs_done h).1 (dfs_done h).2 (b := b)
  rwa [edge_eq] at this

theorem idom_start (h : g.Ok) : g.idom g.start = none := by
  unfold Cfg.idom
  rw [(dfs_done h).2]
  exact (block_idom (dfs_done h).1 (dfs_done h).2 (doms_ok h) (dfs_done h).2).1 rfl

theorem idom_unreachable (h : g.Ok) {b : Nat} (hb : ¬ Reachable g.Edge g.start b) : g.idom b = none := by
  unfold Cfg.idom
  cases hn : g.dfs.num b with
  | none => rfl
  | some i => exact absurd ((num_reachable h).1 ⟨i, hn⟩) hb

theorem idom_some (h : g.Ok) {b i : Nat} (hb : g.dfs.num b = some i) (hne : b ≠ g.start) :
    ∃ d j, g.idom b = some d ∧ g.dfs.num d = some j ∧ g.doms i = some j ∧ j < i ∧ IsIdom g.Edge g.start d b := by
  obtain ⟨d, j, h1, h2, h3, h4⟩ := (block_idom (dfs_done h).1 (dfs_done h).2 (doms_ok h) hb).2 hne
  rw [edge_eq] at h4
  obtain ⟨hi, hbi⟩ := ((dfs_done h).1.wf.iff _ _).1 hb
  have hi0 : 0 < i := by
    refine Nat.pos_of_ne_zero ?_
    rintro rfl
    exact hne (hbi.symm.trans (((dfs_done h).1.wf.iff _ _).1 (dfs_done h).2).2)
  obtain ⟨d', e1, e2, -⟩ := (doms_ok h).idom i hi0 hi
  rw [h3] at e1
  cases e1
  refine ⟨d, j, ?_, h2, h3, e2, h4⟩
  unfold Cfg.idom
  rw [hb]
  exact h1

theorem isIdom_unique {E : Nat → Nat → Prop} {r b d d' : Nat} (hb : Reachable E r b) (h : IsIdom E r d b) (h' : IsIdom E r d' b) : d = d' :=
  dominates_antisymm (h'.2.2 d h.1 h.2.1) (h.2.2 d' h'.1 h'.2.1) (dominates_reachable h'.2.1 hb)

/-- `Cfg.idom` is the immediate dominator -/
theorem idom_iff (h : g.Ok) {b d : Nat} (hb : Reachable g.Edge g.start b) (hne : b ≠ g.start) : g.idom b = some d ↔ IsIdom g.Edge g.start d b := by
  obtain ⟨i, hi⟩ := (num_reachable h).2 hb
  obtain ⟨d', j, h1, -, -, -, h5⟩ := idom_some h hi hne
  constructor
  · intro hd; rw [h1] at hd; cases hd; exact h5
  · intro hd; rw [h1, isIdom_unique hb hd h5]

theorem dominates_block (h : g.Ok) (hn : g.n ≤ 2 ^ 32) {a b : Nat} (ha : Reachable g.Edge g.start a) (hb : Reachable g.Edge g.start b) :
    g.dominates a b = true ↔ Dominates g.Edge g.start a b := by
  obtain ⟨i, hi⟩ := (num_reachable h).2 ha
  obtain ⟨j, hj⟩ := (num_reachable h).2 hb
  have := block_dominates (dfs_done h).1 (dfs_done h).2 (doms_ok h) hn hi hj
  rw [edge_eq] at this
  unfold Cfg.dominates Cfg.treeNum
  rw [hi, hj]
  exact this

theorem climb_spec (h : g.Ok) (hn : g.n ≤ 2 ^ 32) {b1 : Nat} (h1 : Reachable g.Edge g.start b1) : ∀ fuel b0 i, g.dfs.num b0 = some i → i < fuel →
    ∃ d, g.climb b1 fuel b0 = some d ∧ Dominates g.Edge g.start d b0 ∧ Dominates g.Edge g.start d b1 ∧
      ∀ a, Dominates g.Edge g.start a b0 → Dominates g.Edge g.start a b1 → Dominates g.Edge g.start a d := by
  intro fuel
  induction fuel with
  | zero => intro b0 i _ hi; omega
  | succ fuel ih =>
    intro b0 i hi hlt
    have h0 := (num_reachable h).1 ⟨i, hi⟩
    simp only [Cfg.climb]
    by_cases hd : g.dominates b0 b1 = true
    · rw [if_pos hd]
      exact ⟨b0, rfl, dominates_refl _, (dominates_block h hn h0 h1).1 hd, fun a ha _ => ha⟩
    · rw [if_neg hd]
      have hnd : ¬ Dominates g.Edge g.start b0 b1 := fun hh => hd ((dominates_block h hn h0 h1).2 hh)
      have hne : b0 ≠ g.start := by rintro rfl; exact hnd (dominates_root _)
      obtain ⟨d, j, e1, e2, e3, e4, e5⟩ := idom_some h hi hne
      rw [e1]
      obtain ⟨d', f1, f2, f3, f4⟩ := ih d j e2 (by omega)
      refine ⟨d', f1, dominates_trans f2 e5.2.1, f3, fun a ha hb => f4 a (e5.2.2 a ?_ ha) hb⟩
      rintro rfl
      exact hnd hb

theorem deepest_spec (h : g.Ok) (hn : g.n ≤ 2 ^ 32) {b0 b1 : Nat} (h0 : Reachable g.Edge g.start b0) (h1 : Reachable g.Edge g.start b1) :
    ∃ d, g.deepestCommonDominator b0 b1 = some d ∧ Dominates g.Edge g.start d b0 ∧ Dominates g.Edge g.start d b1 ∧
      ∀ a, Dominates g.Edge g.start a b0 → Dominates g.Edge g.start a b1 → Dominates g.Edge g.start a d := by
  obtain ⟨i, hi⟩ := (num_reachable h).2 h0
  obtain ⟨j, hj⟩ := (num_reachable h).2 h1
  have hu := (dfs_done h).1.wf.used_le
  have hi' := (((dfs_done h).1.wf.iff _ _).1 hi).1
  have hj' := (((dfs_done h).1.wf.iff _ _).1 hj).1
  unfold Cfg.deepestCommonDominator
  split
  · next he => subst he; exact ⟨b0, rfl, dominates_refl _, dominates_refl _, fun a ha _ => ha⟩
  · split
    · obtain ⟨d, e1, e2, e3, e4⟩ := climb_spec h hn h0 (g.n + 1) b1 j hj (by omega)
      exact ⟨d, e1, e3, e2, fun a ha hb => e4 a hb ha⟩
    · exact climb_spec h hn h1 (g.n + 1) b0 i hi (by omega)

/-! ## Frontiers -/

/-- the dominators of a block are ordered -/
theorem dominates_chain (h : g.Ok) {a c p : Nat} (hp : Reachable g.Edge g.start p) (ha : Dominates g.Edge g.start a p) (hc : Dominates g.Edge g.start c p) :
    Dominates g.Edge g.start a c ∨ Dominates g.Edge g.start c a := by
  obtain ⟨i, hi⟩ := (num_reachable h).2 hp
  obtain ⟨hf, h0⟩ := dfs_done h
  have hD := doms_ok h
  have hi' := ((hf.wf.iff _ _).1 hi).1
  have hT : TreeOn g.dfs.used (par g.doms) := fun i h0 hi => (hD.par h0 hi).2.1
  rw [← edge_eq] at ha hc ⊢
  obtain ⟨j, hj, hja⟩ := (dominates_iff hf h0 hi a).1 ha
  obtain ⟨k, hk, hkc⟩ := (dominates_iff hf h0 hi c).1 hc
  rw [hD.anc hi'] at hja hkc
  have hj' := ((hf.wf.iff _ _).1 hj).1
  have hk' := ((hf.wf.iff _ _).1 hk).1
  rw [dominates_iff hf h0 hk a, dominates_iff hf h0 hj c]
  rcases Nat.le_total j k with hle | hle
  · exact Or.inl ⟨j, hj, (hD.anc hk').2 (hT.chain hi' hja hkc hle)⟩
  · exact Or.inr ⟨k, hk, (hD.anc hj').2 (hT.chain hi' hkc hja hle)⟩

/-- a dominator other than the block itself dominates the predecessors -/
theorem dominates_pred {E : Nat → Nat → Prop} {r d y p : Nat} (hd : Dominates E r d y) (hne : d ≠ y) (he : E p y) : Dominates E r d p := by
  intro l hl
  have := hd _ (path_snoc hl he)
  rcases List.mem_append.1 this with h | h
  · exact h
  · rw [List.mem_singleton] at h; exact absurd h hne

/-- the blocks below a block in the tree -/
theorem child_exists (h : g.Ok) {b p : Nat} (hp : Reachable g.Edge g.start p) (hd : Dominates g.Edge g.start b p) (hne : b ≠ p) :
    ∃ c, g.idom c = some b ∧ Dominates g.Edge g.start c p := by
  obtain ⟨i, hi⟩ := (num_reachable h).2 hp
  obtain ⟨hf, h0⟩ := dfs_done h
  have hD := doms_ok h
  have hi' := ((hf.wf.iff _ _).1 hi).1
  have hT : TreeOn g.dfs.used (par g.doms) := fun i h0 hi => (hD.par h0 hi).2.1
  rw [← edge_eq] at hd ⊢
  obtain ⟨j, hj, hja⟩ := (dominates_iff hf h0 hi b).1 hd
  rw [hD.anc hi'] at hja
  obtain ⟨hj', hjb⟩ := (hf.wf.iff _ _).1 hj
  have hji : j ≠ i := by
    rintro rfl
    exact hne (hjb.symm.trans ((hf.wf.iff _ _).1 hi).2)
  obtain ⟨c, c0, c1, c2⟩ := child_of_anc hja hji
  have hc := hT.le hi' c2
  have hcn : g.dfs.num (g.dfs.block c) = some c := (hf.wf.iff _ _).2 ⟨by omega, rfl⟩
  refine ⟨g.dfs.block c, ?_, (dominates_iff hf h0 hi _).2 ⟨c, hcn, (hD.anc hi').2 c2⟩⟩
  unfold Cfg.idom
  rw [hcn]
  show (g.doms c).map g.dfs.block = some b
  rw [(hD.par c0 (by omega)).1, c1]
  simp [hjb]

theorem foldl_append_mem {α β : Type} (f : β → List α) (x : α) (L : List β) : ∀ l, x ∈ L.foldl (fun l c => l ++ f c) l ↔ x ∈ l ∨ ∃ c ∈ L, x ∈ f c := by
  induction L with
  | nil => intro l; simp
  | cons c L ih =>
    intro l
    rw [List.foldl_cons, ih, List.mem_append]
    simp only [List.mem_cons, exists_eq_or_imp, or_assoc]

theorem kids_iff (h : g.Ok) {b c i : Nat} (hi : g.dfs.num b = some i) :
    c ∈ (children g.dfs.used g.doms i).map g.dfs.block ↔ g.idom c = some b := by
  obtain ⟨hf, h0⟩ := dfs_done h
  obtain ⟨hi', hib⟩ := (hf.wf.iff _ _).1 hi
  have hD := doms_ok h
  rw [List.mem_map]
  constructor
  · rintro ⟨w, hw, rfl⟩
    obtain ⟨w0, wn, wd⟩ := mem_children.1 hw
    unfold Cfg.idom
    rw [(hf.wf.iff _ _).2 ⟨wn, rfl⟩]
    simp [wd, hib]
  · intro hc
    unfold Cfg.idom at hc
    cases hn : g.dfs.num c with
    | none => rw [hn] at hc; cases hc
    | some w =>
      rw [hn] at hc
      obtain ⟨hw, hwc⟩ := (hf.wf.iff _ _).1 hn
      cases hdw : g.doms w with
      | none => simp [hdw] at hc
      | some d =>
        have hbd : g.dfs.block d = b := by simpa [hdw] using hc
        have hw0 : 0 < w := by
          refine Nat.pos_of_ne_zero ?_
          rintro rfl
          rw [hD.root] at hdw
          cases hdw
        obtain ⟨d', e1, e2, -⟩ := hD.idom w hw0 hw
        rw [hdw] at e1
        cases e1
        have : g.dfs.num b = some d := (hf.wf.iff _ _).2 ⟨by omega, hbd⟩
        rw [hi] at this
        cases this
        exact ⟨w, mem_children.2 ⟨hw0, hw, hdw⟩, hwc⟩

theorem df_spec (h : g.Ok) : ∀ fuel b i, g.dfs.num b = some i → g.dfs.used ≤ fuel + i →
    ∀ y, y ∈ g.df fuel b ↔ InFrontier g.Edge g.Flow g.start b y ∧ ¬ (b = g.start ∧ y = g.start) := by
  obtain ⟨hf, h0⟩ := dfs_done h
  intro fuel
  induction fuel with
  | zero => intro b i hi hu; have := ((hf.wf.iff _ _).1 hi).1; omega
  | succ fuel ih =>
    intro b i hi hu y
    have hb : Reachable g.Edge g.start b := (num_reachable h).1 ⟨i, hi⟩
    have hfe : ∀ {p y}, g.Flow p y → g.Edge p y := fun h => Or.inl h
    have hstart : g.idomOrSelf g.start = g.start := by simp [Cfg.idomOrSelf, idom_start h]
    have hself : ∀ y, Reachable g.Edge g.start y → y ≠ g.start → ∃ d, g.idomOrSelf y = d ∧ IsIdom g.Edge g.start d y := by
      intro y hy hne
      obtain ⟨k, hk⟩ := (num_reachable h).2 hy
      obtain ⟨d, j, e1, -, -, -, e5⟩ := idom_some h hk hne
      exact ⟨d, by simp [Cfg.idomOrSelf, e1], e5⟩
    have hdomstart : ∀ {a}, Dominates g.Edge g.start a g.start → a = g.start := by
      intro a ha
      have := ha _ (.nil g.start)
      rwa [List.mem_singleton] at this
    -- the test of the code
    have htest : ∀ y, Reachable g.Edge g.start y → ¬ (Dominates g.Edge g.start b y ∧ b ≠ y) → ¬ (b = g.start ∧ y = g.start) → g.idomOrSelf y ≠ b := by
      intro y hy hnd hns heq
      by_cases hys : y = g.start
      · subst hys
        rw [hstart] at heq
        exact hns ⟨heq.symm, rfl⟩
      · obtain ⟨d, e1, e2⟩ := hself y hy hys
        rw [heq] at e1
        subst e1
        exact hnd ⟨e2.2.1, e2.1⟩
    simp only [Cfg.df, hi]
    rw [foldl_append_mem]
    simp only [List.mem_filter, List.mem_reverse, List.mem_filterMap, id_eq, exists_eq_right, decide_eq_true_eq, kids_iff h hi]
    constructor
    · rintro (⟨h1, h2⟩ | ⟨c, hc, h1, h2⟩)
      · have hy : Reachable g.Edge g.start y := by obtain ⟨l, hl⟩ := hb; exact ⟨_, path_snoc hl (hfe h1)⟩
        refine ⟨⟨b, hb, h1, dominates_refl _, ?_⟩, ?_⟩
        · rintro ⟨hd, hne⟩
          by_cases hys : y = g.start
          · subst hys; exact hne (hdomstart hd)
          · obtain ⟨d, e1, e2⟩ := hself y hy hys
            have g1 := e2.2.2 b hne hd
            have g2 := dominates_pred e2.2.1 e2.1 (hfe h1)
            exact h2 (e1.trans (dominates_antisymm g2 g1 hb))
        · rintro ⟨rfl, rfl⟩; exact h2 hstart
      · -- from a child
        have hcs : c ≠ g.start := by rintro rfl; rw [idom_start h] at hc; cases hc
        have hcr : Reachable g.Edge g.start c := Classical.byContradiction fun hh => by rw [idom_unreachable h hh] at hc; cases hc
        have hcid := (idom_iff h hcr hcs).1 hc
        obtain ⟨k, hk⟩ := (num_reachable h).2 hcr
        obtain ⟨d', j, e1, e2, e3, e4, e5⟩ := idom_some h hk hcs
        rw [hc] at e1
        cases e1
        rw [hi] at e2
        cases e2
        obtain ⟨⟨p, p1, p2, p3, p4⟩, -⟩ := (ih c k hk (by omega) y).1 h1
        have hy : Reachable g.Edge g.start y := by obtain ⟨l, hl⟩ := p1; exact ⟨_, path_snoc hl (hfe p2)⟩
        refine ⟨⟨p, p1, p2, dominates_trans hcid.2.1 p3, ?_⟩, ?_⟩
        · rintro ⟨hd, hne⟩
          by_cases hys : y = g.start
          · subst hys; exact hne (hdomstart hd)
          · obtain ⟨d, e1, e2⟩ := hself y hy hys
            have g1 := e2.2.2 b hne hd
            have g2 := dominates_pred e2.2.1 e2.1 (hfe p2)
            rcases dominates_chain h p1 p3 g2 with hcd | hdc
            · have hcy := dominates_trans hcd e2.2.1
              have : c = y := Classical.byContradiction fun hh => p4 ⟨hcy, hh⟩
              subst this
              exact h2 (e1.trans (isIdom_unique hcr e2 hcid))
            · by_cases hdce : d = c
              · subst hdce
                exact p4 ⟨e2.2.1, e2.1⟩
              · have g3 := hcid.2.2 d hdce hdc
                exact h2 (e1.trans (dominates_antisymm g3 g1 hb))
        · rintro ⟨rfl, rfl⟩; exact h2 hstart
    · rintro ⟨⟨p, p1, p2, p3, p4⟩, hns⟩
      have hy : Reachable g.Edge g.start y := by obtain ⟨l, hl⟩ := p1; exact ⟨_, path_snoc hl (hfe p2)⟩
      by_cases hpb : b = p
      · subst hpb
        exact Or.inl ⟨p2, htest y hy p4 hns⟩
      · right
        obtain ⟨c, hc, hcp⟩ := child_exists h p1 p3 hpb
        have hcs : c ≠ g.start := by rintro rfl; rw [idom_start h] at hc; cases hc
        have hcr : Reachable g.Edge g.start c := dominates_reachable hcp p1
        have hcid := (idom_iff h hcr hcs).1 hc
        obtain ⟨k, hk⟩ := (num_reachable h).2 hcr
        obtain ⟨d', j, e1, e2, e3, e4, e5⟩ := idom_some h hk hcs
        rw [hc] at e1
        cases e1
        rw [hi] at e2
        cases e2
        refine ⟨c, hc, (ih c k hk (by omega) y).2 ⟨⟨p, p1, p2, hcp, ?_⟩, fun hh => hcs hh.1⟩, htest y hy p4 hns⟩
        rintro ⟨hcy, hcne⟩
        by_cases hby : b = y
        · subst hby
          exact hcid.1 (dominates_antisymm hcid.2.1 hcy hcr)
        · exact p4 ⟨dominates_trans hcid.2.1 hcy, hby⟩

end Verif.Model.Dom
