import Verif.Lemmas.DomFront
import Verif.Lemmas.DomPost
import Verif.Model.Cdep
import Verif.Spec.Cdep
/-! # Lemmas about control dependence -/
namespace Verif.Model.Dom
open Verif.Spec

variable {g : Cfg}

theorem mem_addCdep {on x : Nat} : ∀ {l : List Nat}, x ∈ addCdep on l ↔ x = on ∨ x ∈ l
  | [] => by simp [addCdep]
  | d :: ds => by
    unfold addCdep
    by_cases h : d = on
    · rw [if_pos h]
      subst h
      simp
    · rw [if_neg h]
      simp only [List.mem_cons, mem_addCdep (l := ds)]
      grind

theorem nodup_addCdep {on : Nat} : ∀ {l : List Nat}, l.Nodup → (addCdep on l).Nodup
  | [], _ => by simp [addCdep]
  | d :: ds, h => by
    unfold addCdep
    by_cases hd : d = on
    · rw [if_pos hd]; exact h
    · rw [if_neg hd]
      obtain ⟨h1, h2⟩ := List.nodup_cons.1 h
      refine List.nodup_cons.2 ⟨fun hm => ?_, nodup_addCdep h2⟩
      rcases mem_addCdep.1 hm with h' | h'
      · exact hd h'
      · exact h1 h'

theorem foldl_addCdep {pred : Nat} : ∀ (l : List Nat) (m : Nat → List Nat), (∀ a, (m a).Nodup) →
    (∀ a b, b ∈ (l.foldl (fun m x => set m x (addCdep pred (m x))) m) a ↔ b ∈ m a ∨ (a ∈ l ∧ b = pred)) ∧
    ∀ a, ((l.foldl (fun m x => set m x (addCdep pred (m x))) m) a).Nodup
  | [], m, h => ⟨fun a b => by simp, h⟩
  | x :: l, m, h => by
    have hs : ∀ a, (set m x (addCdep pred (m x)) a).Nodup := by
      intro a
      by_cases hx : a = x
      · rw [hx, set_same]; exact nodup_addCdep (h x)
      · rw [set_other _ _ hx]; exact h a
    obtain ⟨h1, h2⟩ := foldl_addCdep l (set m x (addCdep pred (m x))) hs
    refine ⟨fun a b => ?_, h2⟩
    rw [List.foldl_cons, h1]
    by_cases hx : a = x
    · subst hx
      rw [set_same, mem_addCdep]
      simp only [List.mem_cons]
      grind
    · rw [set_other _ _ hx]
      simp only [List.mem_cons]
      grind

/-- what is needed of a graph: nothing gets to the start block, and nothing leaves the end block -/
structure Cfg.Ends (g : Cfg) : Prop where
  start : ∀ b, some g.start ∉ g.outs b
  stop : ∀ c, some c ∉ g.outs g.stop
  ne : g.start ≠ g.stop

theorem back_start (h : g.Ok) (hs : g.Ends) {y : Nat} : ¬ g.BackEdge' g.start y := by
  rintro ((h1 | ⟨h1, -⟩) | ⟨h1, -⟩)
  · have hy := h.insLt _ _ h.start h1
    exact hs.start y ((h.edge y g.start hy h.start).2 h1)
  · exact hs.ne h1
  · exact hs.ne h1

theorem path_back' (h : g.Ok) (hs : g.Ends) {u x : Nat} {l : List Nat} (hp : Path g.BackEdge' u l x) (hx : x ≠ g.start) :
    Path g.BackEdge u l x := by
  induction hp with
  | nil v => exact .nil v
  | @cons u v w l he hp ih =>
    have hv : v ≠ g.start := by
      rintro rfl
      cases hp with
      | nil => exact hx rfl
      | cons he' _ => exact back_start h hs he'
    rcases he with he | ⟨-, he⟩
    · exact .cons he (ih hx)
    · exact absurd he hv

theorem path_mono {E E' : Nat → Nat → Prop} (hE : ∀ a b, E a b → E' a b) {u v : Nat} {l : List Nat} (h : Path E u l v) : Path E' u l v := by
  induction h with
  | nil v => exact .nil v
  | cons he _ ih => exact .cons (hE _ _ he) ih

theorem postdom_iff (h : g.Ok) (hs : g.Ends) {a x : Nat} (hx : x ≠ g.start) : g.Postdom a x ↔ Dominates g.BackEdge g.stop a x :=
  ⟨fun hd l hl => hd l (path_mono (fun _ _ he => .inl he) hl), fun hd l hl => hd l (path_back' h hs hl hx)⟩

theorem postdom_start {a : Nat} : g.Postdom a g.start ↔ (a = g.stop ∨ a = g.start) := by
  constructor
  · intro hd
    have := hd [g.stop, g.start] (.cons (.inr ⟨rfl, rfl⟩) (.nil _))
    simpa using this
  · rintro (rfl | rfl)
    · exact dominates_root _
    · exact dominates_refl _

theorem dominates_stop {E : Nat → Nat → Prop} {r a : Nat} (h : Dominates E r a r) : a = r := by
  simpa using h [r] (.nil r)

/-- a path with the start block in it ends there -/
theorem path_start (h : g.Ok) (hs : g.Ends) {u x : Nat} {l : List Nat} (hl : Path g.BackEdge u l x) (hx : x ≠ g.start) : g.start ∉ l := by
  intro hm
  induction hl with
  | nil v => exact hx (List.mem_singleton.1 hm).symm
  | @cons u v w l he hp ih =>
    rcases List.mem_cons.1 hm with hm | hm
    · subst hm
      exact back_start h hs (.inl he)
    · exact ih hx hm

/-- the postdominator of a block other than start block and end block -/
theorem ipdom_spec (h : g.Ok) (hs : g.Ends) {s i : Nat} (hi : g.pdfs.num s = some i) (h1 : s ≠ g.stop) (h2 : s ≠ g.start) :
    ∃ t j, g.cdepIpdom s = some t ∧ g.pdfs.num t = some j ∧ j < i ∧ t ≠ g.start ∧ IsIdom g.BackEdge g.stop t s := by
  obtain ⟨t, j, e1, e2, e3, e4⟩ := (block_idom (pdfs_done h).1 (pdfs_done h).2.1 (pdoms_ok h) hi).2 h1
  rw [backs_eq h] at e4
  have hlt : j < i := by
    obtain ⟨hu, hbl⟩ := ((pdfs_done h).1.wf.iff _ _).1 hi
    have hi0 : 0 < i := by
      refine Nat.pos_of_ne_zero ?_
      rintro rfl
      exact h1 (hbl.symm.trans (((pdfs_done h).1.wf.iff _ _).1 (pdfs_done h).2.1).2)
    obtain ⟨d, f1, f2, -⟩ := (pdoms_ok h).idom i hi0 hu
    rw [e3] at f1
    cases f1
    exact f2
  refine ⟨t, j, ?_, e2, hlt, ?_, e4⟩
  · unfold Cfg.cdepIpdom Cfg.ipostdom
    rw [if_neg h2, hi]
    exact e1
  · rintro rfl
    obtain ⟨l, hl⟩ := (pnum_reachable h).1 ⟨i, hi⟩
    exact path_start h hs hl h2 (e4.2.1 l hl)

/-- the loop of `cdep_pre` -/
theorem climbTo_spec (h : g.Ok) (hs : g.Ends) {d : Nat} : ∀ fuel s i, g.pdfs.num s = some i → i < fuel → s ≠ g.start →
    Dominates g.BackEdge g.stop d s → ∃ l, g.climbTo (some d) fuel (some s) = some l ∧
      ∀ a, a ∈ l ↔ Dominates g.BackEdge g.stop a s ∧ ¬ Dominates g.BackEdge g.stop a d := by
  intro fuel
  induction fuel with
  | zero => intro s i _ hlt; omega
  | succ fuel ih =>
    intro s i hi hlt hst hd
    unfold Cfg.climbTo
    by_cases hsd : s = d
    · rw [if_pos (by rw [hsd])]
      refine ⟨[], rfl, fun a => ?_⟩
      rw [hsd]
      simp
    · rw [if_neg (by simpa using hsd)]
      dsimp only
      have hstop : s ≠ g.stop := by
        rintro rfl
        exact hsd (dominates_stop hd).symm
      obtain ⟨t, j, e1, e2, e3, e4, e5⟩ := ipdom_spec h hs hi hstop hst
      rw [e1]
      obtain ⟨l, f1, f2⟩ := ih t j e2 (by omega) e4 (e5.2.2 d (fun hh => hsd hh.symm) hd)
      refine ⟨s :: l, by rw [f1]; rfl, fun a => ?_⟩
      have hr : Reachable g.BackEdge g.stop s := (pnum_reachable h).1 ⟨i, hi⟩
      rw [List.mem_cons, f2]
      constructor
      · rintro (rfl | ⟨h3, h4⟩)
        · exact ⟨dominates_refl _, fun hh => hsd (dominates_antisymm hh hd (dominates_reachable hd hr))⟩
        · exact ⟨dominates_trans h3 e5.2.1, h4⟩
      · rintro ⟨h3, h4⟩
        by_cases has : a = s
        · exact .inl has
        · exact .inr ⟨e5.2.2 a has h3, h4⟩

/-- one edge: exactly the blocks that are dependent because of it -/
theorem edge_spec (h : g.Ok) (hs : g.Ends) {s b : Nat} (hr : Reachable g.BackEdge g.stop s) (he : b ∈ g.cfgPreds s) :
    ∃ l, g.climbTo (g.cdepIpdom b) (g.n + 1) (some s) = some l ∧
      ∀ a, a ∈ l ↔ g.Postdom a s ∧ ¬ (g.Postdom a b ∧ a ≠ b) := by
  obtain ⟨i, hi⟩ := (pnum_reachable h).2 hr
  have hin := mem_cfgPreds.1 he
  have hsn : s < g.n := by
    obtain ⟨h1, h2⟩ := ((pdfs_done h).1.wf.iff _ _).1 hi
    rw [← h2]
    exact (pdfs_done h).1.wf.lt i h1
  have hbn := h.insLt _ _ hsn hin
  have hout := (h.edge b s hbn hsn).2 hin
  have hst : s ≠ g.start := by
    rintro rfl
    exact hs.start b hout
  have hfuel : i < g.n + 1 := by
    have := (((pdfs_done h).1.wf.iff _ _).1 hi).1
    have := (pdfs_done h).1.wf.used_le
    omega
  by_cases hb : b = g.start
  · subst hb
    obtain ⟨l, h1, h2⟩ := climbTo_spec h hs (d := g.stop) (g.n + 1) s i hi hfuel hst (dominates_root _)
    refine ⟨l, by unfold Cfg.cdepIpdom; rw [if_pos rfl]; exact h1, fun a => ?_⟩
    rw [h2, postdom_iff h hs hst, postdom_start]
    refine and_congr_right fun hd => not_congr ⟨fun hh => ?_, fun hh => ?_⟩
    · have := dominates_stop hh
      exact ⟨.inl this, fun he => hs.ne (he.symm.trans this)⟩
    · rcases hh.1 with h' | h'
      · rw [h']; exact dominates_refl _
      · exact absurd h' hh.2
  · have hbr : Reachable g.BackEdge g.stop b := by
      obtain ⟨l, hl⟩ := hr
      exact ⟨_, path_snoc hl (.inl hin)⟩
    have hbs : b ≠ g.stop := by
      rintro rfl
      exact hs.stop s hout
    obtain ⟨k, hk⟩ := (pnum_reachable h).2 hbr
    obtain ⟨t, j, e1, -, -, -, e5⟩ := ipdom_spec h hs hk hbs hb
    obtain ⟨l, h1, h2⟩ := climbTo_spec h hs (d := t) (g.n + 1) s i hi hfuel hst (dominates_pred e5.2.1 e5.1 (.inl hin))
    refine ⟨l, by rw [e1]; exact h1, fun a => ?_⟩
    rw [h2, postdom_iff h hs hst, postdom_iff h hs hb]
    refine and_congr_right fun hd => not_congr ⟨fun hh => ?_, fun hh => e5.2.2 a hh.2 hh.1⟩
    refine ⟨dominates_trans hh e5.2.1, ?_⟩
    rintro rfl
    exact e5.1 (dominates_antisymm e5.2.1 hh hbr)

theorem cdepPre_spec (h : g.Ok) (hs : g.Ends) {s : Nat} (hr : Reachable g.BackEdge g.stop s) : ∀ (ps : List Nat) (m : Nat → List Nat),
    (∀ b ∈ ps, b ∈ g.cfgPreds s) → (∀ a, (m a).Nodup) → ∃ m', ps.foldlM (g.cdepPred s) m = some m' ∧ (∀ a, (m' a).Nodup) ∧
      ∀ a b, b ∈ m' a ↔ b ∈ m a ∨ (b ∈ ps ∧ g.Postdom a s ∧ ¬ (g.Postdom a b ∧ a ≠ b)) := by
  intro ps
  induction ps with
  | nil => intro m _ hn; exact ⟨m, rfl, hn, fun a b => by simp⟩
  | cons p ps ih =>
    intro m hps hn
    obtain ⟨l, h1, h2⟩ := edge_spec h hs hr (hps p (List.mem_cons_self))
    obtain ⟨f1, f2⟩ := foldl_addCdep (pred := p) l m hn
    obtain ⟨m', e1, e2, e3⟩ := ih _ (fun b hb => hps b (List.mem_cons_of_mem _ hb)) f2
    refine ⟨m', ?_, e2, fun a b => ?_⟩
    · rw [List.foldlM_cons]
      unfold Cfg.cdepPred at e1 ⊢
      rw [h1]
      exact e1
    · rw [e3, f1, h2, List.mem_cons]
      grind

theorem compute_spec (h : g.Ok) (hs : g.Ends) : ∀ (bs : List Nat) (m : Nat → List Nat), (∀ s ∈ bs, Reachable g.BackEdge g.stop s) →
    (∀ a, (m a).Nodup) → ∃ m', bs.foldlM g.cdepPre m = some m' ∧ (∀ a, (m' a).Nodup) ∧
      ∀ a b, b ∈ m' a ↔ b ∈ m a ∨ ∃ s ∈ bs, b ∈ g.cfgPreds s ∧ g.Postdom a s ∧ ¬ (g.Postdom a b ∧ a ≠ b) := by
  intro bs
  induction bs with
  | nil => intro m _ hn; exact ⟨m, rfl, hn, fun a b => by simp⟩
  | cons s bs ih =>
    intro m hbs hn
    obtain ⟨m1, h1, h2, h3⟩ := cdepPre_spec h hs (hbs s List.mem_cons_self) (g.cfgPreds s).reverse m (fun b hb => List.mem_reverse.1 hb) hn
    obtain ⟨m', e1, e2, e3⟩ := ih m1 (fun b hb => hbs b (List.mem_cons_of_mem _ hb)) h2
    refine ⟨m', ?_, e2, fun a b => ?_⟩
    · rw [List.foldlM_cons]
      unfold Cfg.cdepPre at e1 ⊢
      rw [h1]
      exact e1
    · rw [e3, h3]
      simp only [List.mem_reverse, List.mem_cons]
      grind

theorem forWalk_ok (h : g.Ok) : g.forWalk.Ok :=
  ⟨h.start, h.stop, h.outsLt, h.insLt, fun b hb => h.keepLt b (List.mem_reverse.1 hb), h.edge, fun b hb => by
    rw [show g.forWalk.keep = g.keep.reverse from rfl, List.mem_reverse]; exact h.keep b hb⟩

theorem forWalk_back : g.forWalk.BackEdge = g.BackEdge := by
  funext b c
  unfold Cfg.BackEdge Cfg.forWalk
  simp only [List.mem_reverse]

/-- the walker gets to all blocks from which the end block or a block that is kept alive can be reached, once -/
theorem mem_blockWalk (h : g.Ok) {b : Nat} : b ∈ g.blockWalk ↔ Reachable g.BackEdge g.stop b := by
  have h1 := pnum_reachable (forWalk_ok h) (b := b)
  rw [forWalk_back] at h1
  change _ ↔ Reachable g.BackEdge g.stop b at h1
  rw [← h1]
  unfold Cfg.blockWalk
  simp only [List.mem_map, List.mem_range]
  exact exists_congr fun i => (((pdfs_done (forWalk_ok h)).1.wf.iff b i)).symm

theorem nodup_blockWalk (h : g.Ok) : g.blockWalk.Nodup := by
  have hw := (pdfs_done (forWalk_ok h)).1.wf
  unfold Cfg.blockWalk
  rw [List.nodup_iff_pairwise_ne, List.pairwise_map]
  refine List.Pairwise.imp_of_mem ?_ (List.nodup_iff_pairwise_ne.1 (List.nodup_range (n := g.forWalk.pdfs.used)))
  intro a b ha hb hab hh
  have h1 := (hw.iff (g.forWalk.pdfs.block a) a).2 ⟨List.mem_range.1 ha, rfl⟩
  have h2 := (hw.iff (g.forWalk.pdfs.block a) b).2 ⟨List.mem_range.1 hb, hh.symm⟩
  rw [h1] at h2
  exact hab (Option.some.inj h2)

end Verif.Model.Dom
