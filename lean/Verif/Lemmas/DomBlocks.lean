import Verif.Lemmas.DomTree
import Verif.Spec.DomCfg
/-!
# Dominators of blocks
-/
namespace Verif.Model.Dom
open Verif.Spec.DomTheory Verif.Spec

variable {g : Cfg}

theorem mem_succ {b c : Nat} : c ∈ g.succ b ↔ g.Edge b c := by
  unfold Cfg.succ Cfg.Edge
  rw [List.mem_filterMap]
  constructor
  · rintro ⟨o, ho, h⟩
    cases o with
    | some x => cases h; exact Or.inl ho
    | none =>
      simp only at h
      split at h
      · cases h
      · next hne => cases h; exact Or.inr ⟨rfl, hne, ho⟩
  · rintro (h | ⟨rfl, h1, h2⟩)
    · exact ⟨_, h, rfl⟩
    · exact ⟨none, h2, by simp [h1]⟩

theorem edge_eq : (fun b c => c ∈ g.succ b) = g.Edge := by funext b c; exact propext mem_succ

theorem succ_lt (h : g.Ok) : ∀ b c, b < g.n → c ∈ g.succ b → c < g.n := by
  intro b c hb hc
  rcases mem_succ.1 hc with hc | ⟨rfl, -⟩
  · exact h.outsLt b c hb hc
  · exact h.stop

theorem dfs_done (h : g.Ok) : Finished g.n g.succ g.dfs ∧ g.dfs.num g.start = some 0 := dfs_finished (succ_lt h) h.start (Nat.lt_succ_self _)

theorem preds_ok (h : g.Ok) : PredsOk g.dfs.used (g.dfs.Edge g.succ) (g.preds g.dfs) := by
  obtain ⟨hf, -⟩ := dfs_done h
  refine ⟨fun w v hw hv => ?_, fun w v he hne => ?_⟩
  · unfold Cfg.preds at hv
    rw [List.mem_filterMap] at hv
    obtain ⟨o, ho, hv⟩ := hv
    cases o with
    | none => cases hv
    | some b =>
      simp only at hv
      obtain ⟨h1, h2⟩ := (hf.wf.iff _ _).1 hv
      refine ⟨h1, ?_⟩
      have hb := hf.wf.lt v h1
      have hwn := hf.wf.lt w hw
      rw [h2] at hb
      unfold Cfg.pred at ho
      rcases List.mem_append.1 ho with ho | ho
      · exact Or.inl ⟨h1, hw, by rw [h2]; exact mem_succ.2 (Or.inl ((h.edge _ _ hb hwn).2 ho))⟩
      · split at ho
        · next hs =>
          obtain ⟨k, hk, hkb⟩ := List.mem_map.1 ho
          cases hkb
          by_cases hbs : b = g.stop
          · right
            have := (hf.wf.iff (g.dfs.block w) w).2 ⟨hw, rfl⟩
            rw [hs, ← hbs] at this
            rw [hv] at this
            exact Option.some.inj this
          · exact Or.inl ⟨h1, hw, by rw [h2]; exact mem_succ.2 (Or.inr ⟨hs, hbs, (h.keep b hb).2 hk⟩)⟩
        · cases ho
  · obtain ⟨h1, h2, h3⟩ := he
    have hv := hf.wf.lt v h1
    have hw := hf.wf.lt w h2
    unfold Cfg.preds
    rw [List.mem_filterMap]
    refine ⟨some (g.dfs.block v), ?_, (hf.wf.iff _ _).2 ⟨h1, rfl⟩⟩
    unfold Cfg.pred
    rw [List.mem_append]
    rcases mem_succ.1 h3 with h3 | ⟨h3, h4, h5⟩
    · exact Or.inl ((h.edge _ _ hv hw).1 h3)
    · right
      rw [if_pos h3]
      exact List.mem_map.2 ⟨_, (h.keep _ hv).1 h5, rfl⟩

theorem doms_ok (h : g.Ok) : Doms g.dfs.used (g.dfs.Edge g.succ) g.doms := idoms_doms (dfs_done h).1.tree (preds_ok h)

/-! ## Generic part: entries and blocks -/

section
variable {n : Nat} {succ : Nat → List Nat} {s : Dfs} {r : Nat} {dom : Nat → Option Nat}

/-- what the code reads from the entries -/
theorem block_idom (hf : Finished n succ s) (h0 : s.num r = some 0) (hd : Doms s.used (s.Edge succ) dom) {b i : Nat} (hb : s.num b = some i) :
    (b = r → (dom i).map s.block = none) ∧
    (b ≠ r → ∃ d j, (dom i).map s.block = some d ∧ s.num d = some j ∧ dom i = some j ∧ IsIdom (fun b c => c ∈ succ b) r d b) := by
  obtain ⟨h1, h2⟩ := (hf.wf.iff _ _).1 hb
  constructor
  · rintro rfl
    rw [h0] at hb
    cases hb
    rw [hd.root]
    rfl
  · intro hne
    have hi : 0 < i := by
      refine Nat.pos_of_ne_zero ?_
      rintro rfl
      exact hne (h2.symm.trans ((hf.wf.iff _ _).1 h0).2)
    obtain ⟨d, e1, e2, e3⟩ := hd.idom i hi h1
    have hdn : s.num (s.block d) = some d := (hf.wf.iff _ _).2 ⟨by omega, rfl⟩
    exact ⟨s.block d, d, by rw [e1]; rfl, hdn, e1, isIdom_iff hf h0 hb hdn e3⟩

theorem block_dominates (hf : Finished n succ s) (h0 : s.num r = some 0) (hd : Doms s.used (s.Edge succ) dom) (hn : n ≤ 2 ^ 32) {a b i j : Nat}
    (ha : s.num a = some i) (hb : s.num b = some j) :
    inSubtree (BitVec.ofNat 32 ((treeNums s.used dom).pre i), BitVec.ofNat 32 ((treeNums s.used dom).max i))
      (BitVec.ofNat 32 ((treeNums s.used dom).pre j), BitVec.ofNat 32 ((treeNums s.used dom).max j)) = true ↔
    Dominates (fun b c => c ∈ succ b) r a b := by
  obtain ⟨h1, -⟩ := (hf.wf.iff _ _).1 ha
  obtain ⟨h2, -⟩ := (hf.wf.iff _ _).1 hb
  obtain ⟨e1, e2, e3⟩ := treeNums_spec hd hf.pos h1 h2
  obtain ⟨-, e4, e5⟩ := treeNums_spec hd hf.pos h2 h2
  have := hf.wf.used_le
  rw [inSubtree_iff e2 (by omega) (by omega), e1, dominates_iff hf h0 hb a]
  constructor
  · intro h; exact ⟨i, ha, h⟩
  · rintro ⟨k, hk, h⟩
    rw [ha] at hk
    cases hk
    exact h

theorem block_depth (hf : Finished n succ s) (h0 : s.num r = some 0) (hd : Doms s.used (s.Edge succ) dom) {b i : Nat} (hb : s.num b = some i) :
    ∃ S : List Nat, S.Nodup ∧ (∀ a, a ∈ S ↔ Dominates (fun b c => c ∈ succ b) r a b) ∧ depths s.used dom i = S.length := by
  obtain ⟨h1, -⟩ := (hf.wf.iff _ _).1 hb
  obtain ⟨S, s1, s2, s3⟩ := depths_spec hd h1
  have hlt : ∀ a ∈ S, a < s.used := by
    intro a ha
    have hT : TreeOn s.used (par dom) := fun i h0 hi => (hd.par h0 hi).2.1
    have := hT.le h1 ((hd.anc h1).1 ((s2 a).1 ha))
    omega
  have hinj : ∀ i j, i < s.used → j < s.used → s.block i = s.block j → i = j := by
    intro i j hi hj hh
    have h1 := (hf.wf.iff _ i).2 ⟨hi, rfl⟩
    have h2 := (hf.wf.iff _ j).2 ⟨hj, hh.symm⟩
    rw [h1] at h2
    exact Option.some.inj h2
  refine ⟨S.map s.block, ?_, fun a => ?_, by rw [List.length_map]; exact s3⟩
  · rw [List.nodup_iff_pairwise_ne, List.pairwise_map]
    exact List.Pairwise.imp_of_mem (fun ha hb hne hh => hne (hinj _ _ (hlt _ ha) (hlt _ hb) hh)) (List.nodup_iff_pairwise_ne.1 s1)
  · rw [List.mem_map, dominates_iff hf h0 hb a]
    constructor
    · rintro ⟨j, hj, rfl⟩
      exact ⟨j, (hf.wf.iff _ _).2 ⟨hlt j hj, rfl⟩, (s2 j).1 hj⟩
    · rintro ⟨j, hj, hr⟩
      exact ⟨j, (s2 j).2 hr, ((hf.wf.iff _ _).1 hj).2⟩

end

/-! ## Dominance in general -/

section
variable {E : Nat → Nat → Prop} {r : Nat}

theorem path_split {u v : Nat} {l : List Nat} (h : Path E u l v) {a : Nat} (ha : a ∈ l) : ∃ l1, Path E u l1 a ∧ ∀ x ∈ l1, x ∈ l := by
  induction h with
  | nil v => rw [List.mem_singleton] at ha; subst ha; exact ⟨[a], .nil a, by simp⟩
  | @cons u w v l he hp ih =>
    rcases List.mem_cons.1 ha with rfl | ha
    · exact ⟨[a], .nil a, by simp⟩
    · obtain ⟨l1, h1, h2⟩ := ih ha
      refine ⟨u :: l1, .cons he h1, fun x hx => ?_⟩
      rcases List.mem_cons.1 hx with rfl | hx
      · simp
      · exact List.mem_cons_of_mem _ (h2 x hx)

theorem path_last {u v : Nat} {l : List Nat} (h : Path E u l v) : v ∈ l := by
  induction h with
  | nil v => simp
  | cons _ _ ih => exact List.mem_cons_of_mem _ ih

theorem path_first {u v : Nat} {l : List Nat} (h : Path E u l v) : u ∈ l := by cases h <;> simp

theorem dominates_refl (a : Nat) : Dominates E r a a := fun _ h => path_last h

theorem dominates_root (a : Nat) : Dominates E r r a := fun _ h => path_first h

theorem dominates_trans {a b c : Nat} (h1 : Dominates E r a b) (h2 : Dominates E r b c) : Dominates E r a c := by
  intro l hl
  obtain ⟨l1, hl1, hs⟩ := path_split hl (h2 l hl)
  exact hs a (h1 l1 hl1)

/-- a dominator of a reachable block is reachable -/
theorem dominates_reachable {a b : Nat} (h : Dominates E r a b) (hb : Reachable E r b) : Reachable E r a := by
  obtain ⟨l, hl⟩ := hb
  obtain ⟨l1, hl1, -⟩ := path_split hl (h l hl)
  exact ⟨l1, hl1⟩

theorem path_decomp {u v : Nat} {l : List Nat} (h : Path E u l v) : (u = v ∧ l = [v]) ∨ ∃ p l1, Path E u l1 p ∧ E p v ∧ l = l1 ++ [v] := by
  induction h with
  | nil v => exact Or.inl ⟨rfl, rfl⟩
  | @cons u w v l he hp ih =>
    right
    rcases ih with ⟨rfl, rfl⟩ | ⟨p, l1, h1, h2, h3⟩
    · exact ⟨u, [u], .nil u, he, rfl⟩
    · exact ⟨p, u :: l1, .cons he h1, h2, by rw [h3]; rfl⟩

/-- a shorter path to one of two different blocks does not contain the other -/
theorem dominates_antisymm {a b : Nat} (h1 : Dominates E r a b) (h2 : Dominates E r b a) (hb : Reachable E r b) : a = b := by
  refine Classical.byContradiction fun hne => ?_
  obtain ⟨l, hl⟩ := hb
  -- paths get shorter forever
  have key : ∀ k l x y, l.length ≤ k → x ≠ y → Dominates E r x y → Dominates E r y x → Path E r l y → False := by
    intro k
    induction k with
    | zero =>
      intro l x y hk _ _ _ hl
      have := List.length_pos_of_mem (path_last hl)
      omega
    | succ k ih =>
      intro l x y hk hne h1 h2 hl
      rcases path_decomp hl with ⟨rfl, rfl⟩ | ⟨p, l1, g1, g2, g3⟩
      · have := h1 _ hl
        rw [List.mem_singleton] at this
        exact hne this
      · have hx := h1 _ hl
        rw [g3] at hx
        have hx : x ∈ l1 := by
          rcases List.mem_append.1 hx with h | h
          · exact h
          · rw [List.mem_singleton] at h; exact absurd h hne
        have hsplit : ∀ {u v : Nat} {l : List Nat}, Path E u l v → ∀ {a : Nat}, a ∈ l → ∃ l1, Path E u l1 a ∧ l1.length ≤ l.length := by
          intro u v l h
          induction h with
          | nil v => intro a ha; rw [List.mem_singleton] at ha; subst ha; exact ⟨[a], .nil a, by simp⟩
          | @cons u w v l he hp ih =>
            intro a ha
            rcases List.mem_cons.1 ha with rfl | ha
            · exact ⟨[a], .nil a, by simp⟩
            · obtain ⟨l1, h1, h2⟩ := ih ha
              exact ⟨u :: l1, .cons he h1, by simp only [List.length_cons]; omega⟩
        obtain ⟨l2, f1, f2⟩ := hsplit g1 hx
        rw [g3, List.length_append, List.length_singleton] at hk
        exact ih l2 y x (by omega) (fun h => hne h.symm) h2 h1 f1
  exact key l.length l a b (Nat.le_refl _) hne h1 h2 hl

end

end Verif.Model.Dom
