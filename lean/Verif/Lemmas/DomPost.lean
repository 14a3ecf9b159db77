import Verif.Lemmas.DomBlocks
/-!
# Postdominators
-/
namespace Verif.Model.Dom
open Verif.Spec.DomTheory Verif.Spec

variable {g : Cfg}

theorem mem_cfgPreds {b c : Nat} : c ∈ g.cfgPreds b ↔ some c ∈ g.ins b := by
  unfold Cfg.cfgPreds
  simp [List.mem_filterMap]

theorem cfgPreds_lt (h : g.Ok) : ∀ b c, b < g.n → c ∈ g.cfgPreds b → c < g.n := fun b c hb hc => h.insLt b c hb (mem_cfgPreds.1 hc)

/-- the edges the search follows -/
def Cfg.backs (g : Cfg) (b : Nat) : List Nat :=
  if b = g.stop then (g.keep.filter fun k => (g.pdfsReach.num k).isNone) ++ g.cfgPreds b else g.cfgPreds b

theorem reach_done (h : g.Ok) : Finished g.n g.cfgPreds g.pdfsReach ∧ g.pdfsReach.num g.stop = some 0 :=
  dfs_finished (cfgPreds_lt h) h.stop (Nat.lt_succ_self _)

theorem mem_backs (h : g.Ok) {b c : Nat} : c ∈ g.backs b ↔ g.BackEdge b c := by
  have hn : ∀ c, (g.pdfsReach.num c).isNone = true ↔ ¬ Reachable (fun b c => some c ∈ g.ins b) g.stop c := by
    intro c
    have := num_iff_reachable (reach_done h).1 (reach_done h).2 (b := c)
    rw [show (fun b c => c ∈ g.cfgPreds b) = (fun b c => some c ∈ g.ins b) from by funext b c; exact propext mem_cfgPreds] at this
    rw [← this]
    cases g.pdfsReach.num c <;> simp
  unfold Cfg.backs Cfg.BackEdge
  split
  · next hb => subst hb; simp only [List.mem_append, List.mem_filter, hn, mem_cfgPreds, true_and]; exact Or.comm
  · next hb => simp [mem_cfgPreds, hb]

theorem backs_eq (h : g.Ok) : (fun b c => c ∈ g.backs b) = g.BackEdge := by funext b c; exact propext (mem_backs h)

theorem cfgPreds_sub {b c : Nat} (hc : c ∈ g.cfgPreds b) : c ∈ g.backs b := by
  unfold Cfg.backs
  split
  · exact List.mem_append_right _ hc
  · exact hc

theorem TreeEdge.backs {s : Dfs} {j : Nat} (h : TreeEdge g.cfgPreds s j) : TreeEdge g.backs s j := ⟨h.1, cfgPreds_sub h.2⟩

theorem Node.backs {s : Dfs} {j : Nat} (h : Node g.cfgPreds s j) (hj : s.block j ≠ g.stop) : Node g.backs s j := by
  obtain ⟨last, h1, h2, h3, h4, h5⟩ := h
  refine ⟨last, h1, h2, h3, h4, ?_⟩
  unfold Cfg.backs
  rw [if_neg hj]
  exact h5

theorem pdfs_done (h : g.Ok) : Finished g.n g.backs g.pdfs ∧ g.pdfs.num g.stop = some 0 ∧ Ext g.pdfsReach g.pdfs := by
  obtain ⟨hf, h0⟩ := reach_done h
  have hb0 : g.pdfsReach.block 0 = g.stop := ((hf.wf.iff _ _).1 h0).2
  -- entries other than the first are other blocks
  have hne : ∀ s', Wf g.n s' → Ext g.pdfsReach s' → ∀ j, 0 < j → j < s'.used → s'.block j ≠ g.stop := by
    intro s' hw he j hj hju hs
    have h1 := (hw.iff _ _).2 ⟨hju, hs⟩
    rw [he.num _ _ h0] at h1
    cases h1
    omega
  have hv := visiting_foldl (n := g.n) (succ := g.backs) (f := fun k s => visit g.cfgPreds (g.n + 1) k 0 s) (i := 0) (b := g.stop) (s := g.pdfsReach) hf.pos hb0
    (fun c s' hc hw he => by
      have hv := visit_spec (cfgPreds_lt h) (g.n + 1) c 0 s' hc hw (by omega)
      have hpos : 0 < s'.used := Nat.lt_of_lt_of_le hf.pos he.used
      have hne' := hne _ hv.wf (he.trans hv.ext)
      exact ⟨hv.wf, hv.ext, hv.num, hv.old, hv.new, fun j h1 h2 => (hv.node j h1 h2).backs (hne' j (by omega) h2),
        fun j h1 h2 => ⟨(hv.inner j h1 h2).1, (hv.inner j h1 h2).2.backs⟩⟩)
    g.keep.reverse [] g.pdfsReach (fun c hc => by
      rw [List.mem_reverse] at hc
      refine ⟨h.keepLt c hc, fun hn => ?_⟩
      unfold Cfg.backs
      rw [if_pos rfl]
      exact List.mem_append_left _ (List.mem_filter.2 ⟨hc, by rw [hn]; rfl⟩))
    ⟨hf.wf, Ext.refl _, by simp, fun j h1 h2 => (hf.node j h2).backs (hne _ hf.wf (Ext.refl _) j h1 h2),
      fun j h1 h2 => ⟨by omega, (hf.inner j h1 h2).backs⟩⟩
  rw [List.nil_append] at hv
  change Visiting g.n g.backs 0 g.keep.reverse g.pdfsReach g.pdfs at hv
  have hpos : 0 < g.pdfs.used := Nat.lt_of_lt_of_le hf.pos hv.ext.used
  refine ⟨⟨hv.wf, hpos, fun j hj => ?_, fun j h0 hj => (hv.inner j h0 hj).2⟩, hv.ext.num _ _ h0, hv.ext⟩
  by_cases hj0 : j = 0
  · subst hj0
    refine ⟨g.pdfs.used - 1, by omega, by omega, fun x _ _ => by omega, fun x _ _ => by omega, fun c hc => ?_⟩
    have hlt : ∀ {m}, g.pdfs.num c = some m → m ≤ g.pdfs.used - 1 := fun hm => by have := ((hv.wf.iff _ _).1 hm).1; omega
    rw [hv.ext.block 0 hf.pos, hb0] at hc
    unfold Cfg.backs at hc
    rw [if_pos rfl] at hc
    rcases List.mem_append.1 hc with hc | hc
    · obtain ⟨m, hm⟩ := hv.num c (List.mem_reverse.2 (List.mem_filter.1 hc).1)
      exact ⟨m, hm, hlt hm⟩
    · obtain ⟨m, hm⟩ := hf.closed h0 hc
      exact ⟨m, hv.ext.num _ _ hm, hlt (hv.ext.num _ _ hm)⟩
  · exact hv.node j (by omega) hj

theorem psuccs_ok (h : g.Ok) : PredsOk g.pdfs.used (g.pdfs.Edge g.backs) fun w => (g.psuccs w).filterMap id := by
  obtain ⟨hf, h0, he⟩ := pdfs_done h
  obtain ⟨hr, hr0⟩ := reach_done h
  -- the entries after those of the first part
  have hun : ∀ w, w < g.pdfs.used → (g.pdfsReach.used ≤ w ↔ g.pdfsReach.num (g.pdfs.block w) = none) := by
    intro w hw
    constructor
    · intro hle
      cases hn : g.pdfsReach.num (g.pdfs.block w) with
      | none => rfl
      | some m =>
        have h1 := he.num _ _ hn
        have h2 := (hf.wf.iff _ _).2 ⟨hw, rfl⟩
        rw [h2] at h1
        cases h1
        have := ((hr.wf.iff _ _).1 hn).1
        omega
    · intro hn
      refine Nat.le_of_not_lt fun hlt => ?_
      have := (hr.wf.iff _ w).2 ⟨hlt, (he.block w hlt).symm⟩
      rw [hn] at this
      cases this
  have hstop : ∀ w, w < g.pdfs.used → g.pdfs.block w = g.stop → w = 0 := by
    intro w hw hs
    have := (hf.wf.iff _ _).2 ⟨hw, hs⟩
    rw [h0] at this
    exact (Option.some.inj this).symm
  refine ⟨fun w v hw hv => ?_, fun w v hE hne => ?_⟩
  · simp only [List.mem_filterMap, id_eq, exists_eq_right] at hv
    unfold Cfg.psuccs at hv
    rw [List.mem_filterMap] at hv
    obtain ⟨o, ho, hv⟩ := hv
    have hwn := hf.wf.lt w hw
    cases o with
    | some c =>
      have hv : g.pdfs.num c = some v := by simpa using hv
      obtain ⟨h1, h2⟩ := (hf.wf.iff _ _).1 hv
      have hc := h.outsLt _ _ hwn ho
      refine ⟨h1, Or.inl ⟨h1, hw, ?_⟩⟩
      rw [h2]
      exact cfgPreds_sub (mem_cfgPreds.2 ((h.edge _ _ hwn hc).1 ho))
    | none =>
      simp only at hv
      split at hv
      · next hc =>
        have hv : g.pdfs.num g.stop = some v := by simpa using hv
        obtain ⟨h1, h2⟩ := (hf.wf.iff _ _).1 hv
        refine ⟨h1, Or.inl ⟨h1, hw, ?_⟩⟩
        rw [h2]
        unfold Cfg.backs
        rw [if_pos rfl]
        refine List.mem_append_left _ (List.mem_filter.2 ⟨(h.keep _ hwn).1 ho, ?_⟩)
        rw [(hun w hw).1 hc.1]
        rfl
      · cases hv
  · obtain ⟨h1, h2, h3⟩ := hE
    have hvn := hf.wf.lt v h1
    have hwn := hf.wf.lt w h2
    simp only [List.mem_filterMap, id_eq, exists_eq_right]
    unfold Cfg.psuccs
    rw [List.mem_filterMap]
    have hcfg : g.pdfs.block w ∈ g.cfgPreds (g.pdfs.block v) → ∃ a ∈ g.outs (g.pdfs.block w),
        (match a with
          | some c => some (g.pdfs.num c)
          | none => if g.pdfsReach.used ≤ w ∧ g.stop ≠ g.pdfs.block w then some (g.pdfs.num g.stop) else none) = some (some v) := by
      intro hc
      exact ⟨some (g.pdfs.block v), (h.edge _ _ hwn hvn).2 (mem_cfgPreds.1 hc), by simp [(hf.wf.iff _ _).2 ⟨h1, rfl⟩]⟩
    unfold Cfg.backs at h3
    split at h3
    · next hs =>
      rcases List.mem_append.1 h3 with h3 | h3
      · obtain ⟨k1, k2⟩ := List.mem_filter.1 h3
        refine ⟨none, (h.keep _ hwn).2 k1, ?_⟩
        have hv0 := hstop v h1 hs
        have : g.pdfsReach.used ≤ w := (hun w h2).2 (by simpa using k2)
        simp only
        rw [if_pos ⟨this, fun hh => hne (hv0.trans (hstop w h2 hh.symm).symm)⟩, h0, hv0]
      · exact hcfg h3
    · exact hcfg h3

theorem pdoms_ok (h : g.Ok) : Doms g.pdfs.used (g.pdfs.Edge g.backs) g.pdoms := idoms_doms (pdfs_done h).1.tree (psuccs_ok h)

theorem pnum_reachable (h : g.Ok) {b : Nat} : (∃ i, g.pdfs.num b = some i) ↔ Reachable g.BackEdge g.stop b := by
  have := num_iff_reachable (pdfs_done h).1 (pdfs_done h).2.1 (b := b)
  rwa [backs_eq h] at this

/-- the assertion -/
theorem pdomDefined_iff (h : g.Ok) : g.pdomDefined = true ↔
    ∀ b c, Reachable g.BackEdge g.stop b → b ≠ g.stop → some c ∈ g.outs b → Reachable g.BackEdge g.stop c := by
  obtain ⟨hf, h0, he⟩ := pdfs_done h
  unfold Cfg.pdomDefined
  rw [List.all_eq_true]
  constructor
  · intro hall b c hb hbs hc
    obtain ⟨w, hw⟩ := (pnum_reachable h).2 hb
    obtain ⟨hw1, hw2⟩ := (hf.wf.iff _ _).1 hw
    have := hall w (List.mem_range.2 hw1)
    rw [Bool.or_eq_true, beq_iff_eq, List.all_eq_true] at this
    rcases this with rfl | this
    · exact absurd (hw2.symm.trans ((hf.wf.iff _ _).1 h0).2) hbs
    · have := this (g.pdfs.num c) (by
        unfold Cfg.psuccs
        rw [List.mem_filterMap]
        exact ⟨some c, by rw [hw2]; exact hc, rfl⟩)
      exact (pnum_reachable h).1 (Option.isSome_iff_exists.1 this)
  · intro hall w hw
    rw [List.mem_range] at hw
    rw [Bool.or_eq_true, beq_iff_eq, List.all_eq_true]
    by_cases hw0 : w = 0
    · exact Or.inl hw0
    · right
      intro o ho
      unfold Cfg.psuccs at ho
      rw [List.mem_filterMap] at ho
      obtain ⟨x, hx, ho⟩ := ho
      cases x with
      | none =>
        simp only at ho
        split at ho
        · cases ho; rw [h0]; rfl
        · cases ho
      | some c =>
        have ho : g.pdfs.num c = o := by simpa using ho
        rw [← ho]
        refine Option.isSome_iff_exists.2 ((pnum_reachable h).2 (hall (g.pdfs.block w) c ((pnum_reachable h).1 ⟨w, (hf.wf.iff _ _).2 ⟨hw, rfl⟩⟩) ?_ hx))
        intro hs
        have := (hf.wf.iff _ _).2 ⟨hw, hs⟩
        rw [h0] at this
        exact hw0 (Option.some.inj this).symm

end Verif.Model.Dom
