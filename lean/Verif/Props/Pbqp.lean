import Verif.Lemmas.PbqpSteps
/-!
# The PBQP solver: reductions keep the optimum, back propagation finds it (C55)

`pbqp st` is the problem (`Verif.Spec.Pbqp`) a state of the solver stands for.
-/
namespace Verif.Props
open Verif.Model.Pbqp Verif.Spec.Pbqp

/-- **C55** (edge normalisation): simplifying an edge, including its deletion if it has become zero, changes the cost of no selection -/
theorem pbqp_simplify {st : St} (hi : PbqpInv st) {e : Edge} {rest : List Edge} (h : st.edges.Perm (e :: rest)) {σ : Nat → Nat}
    (hσ : (pbqp st).Selection σ) : (pbqp (simplify st e rest)).total σ = (pbqp st).total σ := simplify_total hi h hσ

/-- **C55** (one step): every reduction step (simplification, degree one, degree two, merging) preserves the invariant; back propagation
turns a selection of the reduced problem into a selection of the original problem of the same cost; and no selection of the original
problem is cheaper than what the reduced problem offers -/
theorem pbqp_step {st st' : St} {r : Red} (hi : PbqpInv st) (h : Step st r st') :
    PbqpInv st' ∧
    (∀ σ, (pbqp st').Selection σ → (pbqp st).Selection (r.extend σ) ∧ (pbqp st).total (r.extend σ) = (pbqp st').total σ) ∧
    (∀ σ, (pbqp st).Selection σ → (pbqp st').Selection σ ∧ (pbqp st').total σ ≤ (pbqp st).total σ) := by
  cases h with
  | @simplify e rest h =>
    have ok := hi.edge e (h.mem_iff.mpr List.mem_cons_self)
    have hlen := simplify_length (rest := rest) ok
    have hsel : ∀ σ, (pbqp (simplify st e rest)).Selection σ ↔ (pbqp st).Selection σ := fun σ => by
      constructor
      · intro hs v hv; have := hs v hv; change σ v < ((simplify st e rest).vec v).length at this; rw [hlen] at this; exact this
      · intro hs v hv; change σ v < ((simplify st e rest).vec v).length; rw [hlen]; exact hs v hv
    refine ⟨simplify_inv hi h, fun σ hσ => ⟨(hsel σ).mp hσ, (simplify_total hi h ((hsel σ).mp hσ)).symm⟩,
      fun σ hσ => ⟨(hsel σ).mpr hσ, le_of_eq (simplify_total hi h hσ)⟩⟩
  | ri hv h he hr =>
    exact ⟨applyRI_inv hi hv h he hr, fun σ hσ => applyRI_extend hi hv h he hr hσ, fun σ hσ => applyRI_le hi hv h he hσ⟩
  | rii hv h he hf hr hlt =>
    exact ⟨applyRII_inv hi h he hf hr hlt, fun σ hσ => applyRII_extend hi hv h he hf hr hlt hσ,
      fun σ hσ => applyRII_le hi hv h he hf hr hlt hσ⟩
  | rm h he ho hm hd =>
    exact ⟨reconnect_inv hi h he ho, fun σ hσ => ⟨hσ, (reconnect_total hi h he ho hm hσ).symm⟩,
      fun σ hσ => ⟨hσ, le_of_eq (reconnect_total hi h he ho hm hσ)⟩⟩

/-- **C55**: the minimum over all selections is the same before and after a step -/
theorem pbqp_step_min {st st' : St} {r : Red} (hi : PbqpInv st) (h : Step st r st') {σ : Nat → Nat} (ho : (pbqp st').Optimal σ) :
    (pbqp st).Optimal (r.extend σ) ∧ (pbqp st).total (r.extend σ) = (pbqp st').total σ := by
  obtain ⟨_, h1, h2⟩ := pbqp_step hi h
  obtain ⟨s1, t1⟩ := h1 σ ho.1
  refine ⟨⟨s1, fun τ hτ => ?_⟩, t1⟩
  obtain ⟨s2, t2⟩ := h2 τ hτ
  rw [t1]
  exact le_trans (ho.2 τ s2) t2

/-- **C55** (optimal and brute force solver): the selection computed is optimal and its cost is the one reported -/
theorem pbqp_brute_optimal {st : St} {c : ℕ∞} {σ : Nat → Nat} (hi : PbqpInv st) (h : SolveBrute st c σ) :
    (pbqp st).Optimal σ ∧ (pbqp st).total σ = c := by
  induction h with
  | done h =>
    obtain ⟨h1, h2, h3⟩ := r0_spec hi h
    exact ⟨⟨h1, fun τ hτ => by rw [h2]; exact h3 τ hτ⟩, h2⟩
  | step hs h ih =>
    obtain ⟨h1, h2⟩ := ih (pbqp_step hi hs).1
    obtain ⟨g1, g2⟩ := pbqp_step_min hi hs h1
    exact ⟨g1, g2.trans h2⟩
  | @brute st v c σ hv val sel hall h ihall ih =>
    have hlen : ∀ k τ, (pbqp (select st v k)).Selection τ ↔ (pbqp st).Selection τ := fun k τ => by
      constructor
      · intro hs u hu; have := hs u hu; change τ u < ((select st v k).vec u).length at this; rw [select_length] at this; exact this
      · intro hs u hu; change τ u < ((select st v k).vec u).length; rw [select_length]; exact hs u hu
    have hpos := hi.pos v hv
    have hk := scan_lt hpos (fun _ => false) val
    have hval := scan_val hpos val
    have hmin := (scan_spec (st.vec v).length (fun _ => false) val).1
    generalize scan (st.vec v).length (fun _ => false) val = r at hk hval hmin h ih
    obtain ⟨o1, c1⟩ := ih (select_inv hi v r.1)
    have o2 := ihall r.1 hk (select_inv hi v r.1)
    -- both solutions of the selected alternative are optimal, so they cost the same
    have hc : c = r.2 := by
      rw [← hval, ← c1, ← o2.2]
      exact le_antisymm (o1.2 _ o2.1.1) (o2.1.2 _ o1.1)
    have hlow : ∀ τ, (pbqp st).Selection τ → c ≤ (pbqp st).total τ := fun τ hτ => by
      have hτk : τ v < (st.vec v).length := hτ v hv
      obtain ⟨o3, c3⟩ := ihall (τ v) hτk (select_inv hi v (τ v))
      have h1 := o3.2 τ ((hlen _ _).mpr hτ)
      rw [c3, select_total hi hv hτ, if_pos rfl] at h1
      rw [hc]
      exact le_trans (hmin (τ v) hτk rfl) h1
    have hsel : (pbqp st).Selection σ := (hlen _ _).mp o1.1
    have htot : (pbqp st).total σ = c := by
      rw [select_total hi hv hsel] at c1
      by_cases hs : σ v = r.1
      · rw [if_pos hs] at c1; exact c1
      · rw [if_neg hs] at c1
        have := hlow σ hsel
        rw [← c1] at this ⊢
        exact top_le_iff.mp this
    exact ⟨⟨hsel, fun τ hτ => by rw [htot]; exact hlow τ hτ⟩, htot⟩

/-- **C55** (heuristic solver): the reported cost is never below the cost of the selection, and is exactly its cost if it is finite -/
theorem pbqp_heur_cost {st : St} {c : ℕ∞} {σ : Nat → Nat} (hi : PbqpInv st) (h : SolveHeur st c σ) :
    (pbqp st).Selection σ ∧ (pbqp st).total σ ≤ c ∧ (c ≠ ⊤ → (pbqp st).total σ = c) := by
  induction h with
  | done h =>
    obtain ⟨h1, h2, h3⟩ := r0_spec hi h
    exact ⟨h1, le_of_eq h2, fun _ => h2⟩
  | step hs h ih =>
    obtain ⟨i1, i2, i3⟩ := pbqp_step hi hs
    obtain ⟨h1, h2, h3⟩ := ih i1
    obtain ⟨g1, g2⟩ := i2 _ h1
    rw [g2]
    exact ⟨g1, h2, h3⟩
  | @rn st v k c σ hv hk h ih =>
    obtain ⟨h1, h2, h3⟩ := ih (select_inv hi v k)
    have hsel : (pbqp st).Selection σ := fun u hu => by
      have := h1 u hu; change σ u < ((select st v k).vec u).length at this; rw [select_length] at this; exact this
    rw [select_total hi hv hsel] at h2 h3
    by_cases hs : σ v = k
    · rw [if_pos hs] at h2 h3; exact ⟨hsel, h2, h3⟩
    · rw [if_neg hs] at h2 h3
      have : c = ⊤ := top_le_iff.mp h2
      exact ⟨hsel, by rw [this]; exact le_top, fun hh => absurd this hh⟩

/-- a node with exactly one edge can be reduced, ir/kaps/optimal.c:849-853 -/
theorem pbqp_progress_one {st : St} (hi : PbqpInv st) {v : Nat} {e : Edge}
    (h : st.edges.filter (fun f => f.Inc v) = [e]) : ∃ r st', Step st r st' ∧ st'.live = st.live.erase v := by
  have hp : st.edges.Perm (e :: st.edges.filter fun f => ¬ f.Inc v) := by
    have := (List.filter_append_perm (fun f => decide (Edge.Inc f v)) st.edges).symm
    rw [h] at this
    simpa using this
  have hm : e ∈ st.edges.filter (fun f => f.Inc v) := by rw [h]; exact List.mem_cons_self
  have hin : e.Inc v := by simpa using (List.mem_filter.mp hm).2
  have hv : v ∈ st.live := by
    have ok := hi.edge e (List.mem_filter.mp hm).1
    rcases hin with hh | hh
    · rw [← hh]; exact ok.src
    · rw [← hh]; exact ok.tgt
  exact ⟨_, _, .ri hv hp hin fun f hf => by simpa using (List.mem_filter.mp hf).2, rfl⟩

/-- the two neighbours of a node with exactly two edges are different, so after ordering them it can be reduced,
ir/kaps/optimal.c:905-941 -/
theorem pbqp_progress_two {st : St} (hi : PbqpInv st) {v : Nat} {e f : Edge}
    (h : st.edges.filter (fun g => g.Inc v) = [e, f]) : ∃ r st', Step st r st' ∧ st'.live = st.live.erase v := by
  have hp : st.edges.Perm (e :: f :: st.edges.filter fun f => ¬ f.Inc v) := by
    have := (List.filter_append_perm (fun f => decide (Edge.Inc f v)) st.edges).symm
    rw [h] at this
    simpa using this
  have hme : e ∈ st.edges.filter (fun f => f.Inc v) := by rw [h]; exact List.mem_cons_self
  have hmf : f ∈ st.edges.filter (fun f => f.Inc v) := by rw [h]; exact List.mem_cons_of_mem _ List.mem_cons_self
  have hie : e.Inc v := by simpa using (List.mem_filter.mp hme).2
  have hif : f.Inc v := by simpa using (List.mem_filter.mp hmf).2
  have hv : v ∈ st.live := by
    have ok := hi.edge e (List.mem_filter.mp hme).1
    rcases hie with hh | hh
    · rw [← hh]; exact ok.src
    · rw [← hh]; exact ok.tgt
  obtain ⟨_, _, _, hne⟩ := reconnect_facts hi hp hie hif
  have hr : ∀ g ∈ st.edges.filter (fun f => ¬ f.Inc v), ¬ g.Inc v := fun g hg => by simpa using (List.mem_filter.mp hg).2
  rcases Nat.lt_or_gt_of_ne hne with hlt | hlt
  · exact ⟨_, _, .rii hv hp hie hif hr hlt, rfl⟩
  · exact ⟨_, _, .rii hv (hp.trans (List.Perm.swap _ _ _)) hif hie hr hlt, rfl⟩

/-- **C55** (merging): directly after an edge has been simplified, `mapping` is completely initialised for both directions of merging,
so `merge_source_into_target` and `merge_target_into_source` do not read uninitialised memory -/
theorem pbqp_mapping_defined {st : St} (hi : PbqpInv st) {e : Edge} {rest : List Edge} (h : st.edges.Perm (e :: rest)) {m : Mat}
    (hm : m = (normTgt (normSrc e.mat (st.vec e.src) (st.vec e.tgt)).1 (normSrc e.mat (st.vec e.src) (st.vec e.tgt)).2 (st.vec e.tgt)).1)
    {a j : Nat} (ha : e.Inc a) (hj : j < ((simplify st e rest).vec (e.other a)).length)
    (hfin : vget ((simplify st e rest).vec (e.other a)) j ≠ ⊤) :
    mapping (simplify st e rest) { e with mat := m } a j ≠ none := by
  have he := hi.edge e (h.mem_iff.mpr List.mem_cons_self)
  rw [simplify_length he] at hj
  obtain ⟨a1, a2, a3, a4⟩ := normSrc_dims he.rows he.cols
  have hc : (normSrc e.mat (st.vec e.src) (st.vec e.tgt)).1.cols = (st.vec e.tgt).length := by rw [a2, he.cols]
  have hr : (normSrc e.mat (st.vec e.src) (st.vec e.tgt)).1.rows = (st.vec e.src).length := by rw [a1, he.rows]
  have hne : e.src ≠ e.tgt := Nat.ne_of_lt he.lt
  have vs : (simplify st e rest).vec e.src = (normSrc e.mat (st.vec e.src) (st.vec e.tgt)).2 := by
    unfold simplify; simp only; rw [upd_ne _ _ hne, upd_self]
  have vt : (simplify st e rest).vec e.tgt =
      (normTgt (normSrc e.mat (st.vec e.src) (st.vec e.tgt)).1 (normSrc e.mat (st.vec e.src) (st.vec e.tgt)).2 (st.vec e.tgt)).2 := by
    unfold simplify; simp only; rw [upd_self]
  -- it suffices to find a possible alternative
  suffices hx : ∃ i, i ∈ mergeCandidates (simplify st e rest) { e with mat := m } a j by
    obtain ⟨i, hx⟩ := hx
    unfold mapping
    match hl : mergeCandidates (simplify st e rest) { e with mat := m } a j with
    | [] => rw [hl] at hx; exact absurd hx (by simp)
    | x :: l => simp
  unfold mergeCandidates
  simp only [List.mem_filter, List.mem_range, Bool.and_eq_true, Bool.not_eq_true', decide_eq_false_iff_not, simplify_length he]
  by_cases hs : e.src = a
  · subst hs
    have ho : e.other e.src = e.tgt := by unfold Edge.other; rw [if_pos rfl]
    rw [ho] at hj hfin
    simp only [if_true]
    rw [vs, hm]
    rw [vt, normTgt_vec hc hj] at hfin
    have hmin : colMin (normSrc e.mat (st.vec e.src) (st.vec e.tgt)).1 j (normSrc e.mat (st.vec e.src) (st.vec e.tgt)).2 ≠ ⊤ := fun ht => by
      rw [ht] at hfin; simp at hfin
    unfold colMin at hmin
    rcases (scan_spec (normSrc e.mat (st.vec e.src) (st.vec e.tgt)).1.rows
      (fun i => decide (vget (normSrc e.mat (st.vec e.src) (st.vec e.tgt)).2 i = ⊤))
      (fun i => (normSrc e.mat (st.vec e.src) (st.vec e.tgt)).1.get i j)).2 with ⟨ht, _⟩ | ⟨h1, h2, h3⟩
    · exact absurd ht hmin
    · refine ⟨_, by rw [← hr]; exact h1, by simpa using h2, ?_⟩
      rw [normTgt_get hc h1 hj, h3]
      unfold normEntry
      split
      · exact hmin
      · split
        · simp
        · split
          · simp
          · unfold subCost
            split
            · rename_i hh; exact absurd hh.1 hmin
            · exact fun hh => hmin (by rw [colMin, tsub_self] at hh; simp at hh)
  · have ht : e.tgt = a := by rcases ha with ha | ha; exact absurd ha hs; exact ha
    subst ht
    have ho : e.other e.tgt = e.src := by unfold Edge.other; rw [if_neg hs]
    rw [ho] at hj hfin
    rw [vs, normSrc_vec he.rows he.cols hj] at hfin
    have hmin : rowMin e.mat j (st.vec e.tgt) ≠ ⊤ := fun ht => by rw [ht] at hfin; simp at hfin
    have hown : vget (st.vec e.src) j ≠ ⊤ := fun ht => by rw [ht] at hfin; simp at hfin
    rcases (scan_spec (st.vec e.tgt).length (fun k => decide (vget (st.vec e.tgt) k = ⊤)) (fun k => e.mat.get j k)).2 with ⟨ht, _⟩ | ⟨h1, h2, h3⟩
    · exact absurd ht hmin
    · generalize (scan (st.vec e.tgt).length (fun k => decide (vget (st.vec e.tgt) k = ⊤)) (fun k => e.mat.get j k)).1 = k at h1 h2 h3
      change e.mat.get j k = rowMin e.mat j (st.vec e.tgt) at h3
      have hk : vget (st.vec e.tgt) k ≠ ⊤ := by simpa using h2
      have z1 : (normSrc e.mat (st.vec e.src) (st.vec e.tgt)).1.get j k = 0 := by
        rw [normSrc_get he.rows he.cols hj h1, h3]
        unfold normEntry
        split
        · assumption
        · unfold subCost
          rw [if_neg (fun hh => hmin hh.1), tsub_self]
      have z2 : colMin (normSrc e.mat (st.vec e.src) (st.vec e.tgt)).1 k (normSrc e.mat (st.vec e.src) (st.vec e.tgt)).2 = 0 := by
        refine le_antisymm ?_ bot_le
        rw [← z1]
        refine colMin_le (by rw [hr]; exact hj) ?_
        rw [normSrc_vec he.rows he.cols hj]; exact hfin
      refine ⟨k, h1, ?_, ?_⟩
      · rw [vt, normTgt_vec hc h1, z2, add_zero]; exact hk
      · rw [if_neg hs, hm, normTgt_get hc (by rw [hr]; exact hj) h1, z2]
        unfold normEntry
        rw [if_pos rfl, z1]
        simp

/-! ## Building problems -/

/-- a call of `add_node_costs` or `add_edge_costs` -/
inductive PbqpOp where
  | node (v : Nat) (costs : Vec)
  | edge (a b : Nat) (m : Mat)

/-- the state after a call -/
def PbqpOp.apply (st : St) : PbqpOp → St
  | .node v costs => addNode st v costs
  | .edge a b m => addEdge st a b m

/-- what the assertions in the functions called require -/
def PbqpOp.Ok (st : St) : PbqpOp → Prop
  | .node v costs => 0 < costs.length ∧ (v ∈ st.live → costs.length = (st.vec v).length)
  | .edge a b m => a ∈ st.live ∧ b ∈ st.live ∧ m.rows = (st.vec a).length ∧ m.cols = (st.vec b).length ∧ m.Full

/-- the cost a call stands for -/
def PbqpOp.cost (σ : Nat → Nat) : PbqpOp → ℕ∞
  | .node v costs => vget costs (σ v)
  | .edge a b m => m.get (σ a) (σ b)

/-- problems built from the empty problem -/
inductive Built : List PbqpOp → St → Prop
  | nil (vec : Nat → Vec) : Built [] ⟨vec, [], []⟩
  | snoc {ops st op} (h : Built ops st) (hok : op.Ok st) : Built (ops ++ [op]) (op.apply st)

theorem addNode_spec {st : St} (hi : PbqpInv st) {v : Nat} {costs : Vec} (h0 : 0 < costs.length)
    (hl : v ∈ st.live → costs.length = (st.vec v).length) :
    PbqpInv (addNode st v costs) ∧ ∀ σ, (pbqp (addNode st v costs)).Selection σ →
      (pbqp st).Selection σ ∧ (pbqp (addNode st v costs)).total σ = (pbqp st).total σ + vget costs (σ v) := by
  unfold addNode
  by_cases hv : v ∈ st.live
  · rw [if_pos hv]
    have hlen : ∀ u, (upd st.vec v (vecAdd (st.vec v) costs) u).length = (st.vec u).length := fun u =>
      upd_length (by simp [vecAdd, vbuild_length]) u
    refine ⟨⟨hi.nodup, fun u hu => by rw [hlen]; exact hi.pos u hu, fun e he => (hi.edge e he).congr hlen, hi.keys⟩, fun σ hσ => ?_⟩
    have hs : (pbqp st).Selection σ := fun u hu => by
      have := hσ u hu
      change σ u < (upd st.vec v (vecAdd (st.vec v) costs) u).length at this
      rw [hlen] at this; exact this
    refine ⟨hs, ?_⟩
    rw [total_eq, total_eq]
    simp only
    rw [nodeSum_upd hi.nodup hv, nodeSum_erase hv]
    unfold vecAdd
    have hvl : σ v < (st.vec v).length := hs v hv
    rw [vget_vbuild _ hvl]
    ring
  · rw [if_neg hv]
    have hne : ∀ u ∈ st.live, u ≠ v := fun u hu hh => by subst hh; exact hv hu
    refine ⟨⟨?_, ?_, ?_, hi.keys⟩, fun σ hσ => ?_⟩
    · rw [List.nodup_append]
      exact ⟨hi.nodup, by simp, fun x hx y hy => by simp only [List.mem_singleton] at hy; rw [hy]; exact hne x hx⟩
    · intro u hu
      rcases List.mem_append.mp hu with hu | hu
      · simp only; rw [upd_ne _ _ (hne u hu)]; exact hi.pos u hu
      · simp only [List.mem_singleton] at hu; rw [hu]; simp only; rw [upd_self]; exact h0
    · intro e he
      have ok := hi.edge e he
      exact ⟨ok.lt, List.mem_append_left _ ok.src, List.mem_append_left _ ok.tgt, by simp only; rw [upd_ne _ _ (hne _ ok.src)]; exact ok.rows,
        by simp only; rw [upd_ne _ _ (hne _ ok.tgt)]; exact ok.cols, ok.full⟩
    · have hs : (pbqp st).Selection σ := fun u hu => by
        have := hσ u (List.mem_append_left _ hu)
        change σ u < (upd st.vec v costs u).length at this
        rw [upd_ne _ _ (hne u hu)] at this; exact this
      refine ⟨hs, ?_⟩
      rw [total_eq, total_eq]
      simp only
      have : nodeSum (upd st.vec v costs) (st.live ++ [v]) σ = nodeSum st.vec st.live σ + vget costs (σ v) := by
        unfold nodeSum
        rw [List.map_append, List.sum_append]
        simp only [List.map_cons, List.map_nil, List.sum_cons, List.sum_nil, upd_self, add_zero]
        congr 2
        exact List.map_congr_left fun u hu => by rw [upd_ne _ _ (hne u hu)]
      rw [this]
      ring

/-- **C55** (construction): a problem built with `add_node_costs` and `add_edge_costs` satisfies the invariant, and the cost of a
selection is the sum of all costs that were added -/
theorem pbqp_build {ops : List PbqpOp} {st : St} (h : Built ops st) :
    PbqpInv st ∧ ∀ σ, (pbqp st).Selection σ → (pbqp st).total σ = (ops.map (PbqpOp.cost σ)).sum := by
  induction h with
  | nil vec => exact ⟨⟨by simp, by simp, by simp, by simp⟩, fun σ _ => by simp [pbqp, Problem.total]⟩
  | @snoc ops st op h hok ih =>
    obtain ⟨hi, ht⟩ := ih
    have key : PbqpInv (op.apply st) ∧ ∀ σ, (pbqp (op.apply st)).Selection σ →
        (pbqp st).Selection σ ∧ (pbqp (op.apply st)).total σ = (pbqp st).total σ + op.cost σ := by
      cases op with
      | node v costs => exact addNode_spec hi hok.1 hok.2
      | edge a b m =>
        obtain ⟨ha, hb, hr, hc, hf⟩ := hok
        change PbqpInv (addEdge st a b m) ∧ ∀ σ, (pbqp (addEdge st a b m)).Selection σ →
          (pbqp st).Selection σ ∧ (pbqp (addEdge st a b m)).total σ = (pbqp st).total σ + m.get (σ a) (σ b)
        unfold addEdge
        by_cases hab : a = b
        · subst hab
          rw [if_pos rfl]
          have hlen : (vbuild m.rows fun i => m.get i i).length = (st.vec a).length := by rw [vbuild_length, hr]
          obtain ⟨i1, i2⟩ := addNode_spec (costs := vbuild m.rows fun i => m.get i i) hi (by rw [hlen]; exact hi.pos a ha)
            (fun _ => hlen)
          refine ⟨i1, fun σ hσ => ?_⟩
          obtain ⟨s, t⟩ := i2 σ hσ
          refine ⟨s, ?_⟩
          rw [t, vget_vbuild]
          rw [hr]; exact s a ha
        · rw [if_neg hab]
          refine ⟨⟨hi.nodup, hi.pos, addEdgeCosts_ok hi.edge hab ha hb hr hc hf, addEdgeCosts_nodup hi.keys _ _ _⟩, fun σ hσ => ⟨hσ, ?_⟩⟩
          rw [total_eq, total_eq]
          simp only
          rw [addEdgeCosts_total hi.edge hab ha hb hr hc hf (hσ a ha) (hσ b hb)]
          ring
    refine ⟨key.1, fun σ hσ => ?_⟩
    obtain ⟨s, t⟩ := key.2 σ hσ
    rw [t, ht σ s, List.map_append, List.sum_append]
    simp

/-! ## The cost type -/

/-- reading a 32 bit cost -/
def cost32 (x : Nat) : ℕ∞ := if x = infCosts then ⊤ else x

/-- `pbqp_add` is addition with absorbing infinity as long as the finite sum stays below `INF_COSTS` -/
theorem pbqpAdd32_spec_partial {x y : Nat} (h : x = infCosts ∨ y = infCosts ∨ x + y < infCosts) :
    ∃ r, pbqpAdd32 x y = some r ∧ cost32 r = cost32 x + cost32 y := by
  unfold pbqpAdd32 cost32
  by_cases hinf : x = infCosts ∨ y = infCosts
  · rw [if_pos hinf]
    refine ⟨_, rfl, ?_⟩
    rcases hinf with h | h <;> simp [h]
  · rw [if_neg hinf]
    have hlt : x + y < infCosts := by
      rcases h with h | h | h
      · exact absurd (Or.inl h) hinf
      · exact absurd (Or.inr h) hinf
      · exact h
    have hmod : (x + y) % 2 ^ 32 = x + y := Nat.mod_eq_of_lt (by unfold infCosts at hlt; omega)
    simp only [hmod]
    rw [if_pos ⟨by omega, by omega, hlt⟩]
    refine ⟨_, rfl, ?_⟩
    rw [not_or] at hinf
    rw [if_neg (by omega), if_neg hinf.1, if_neg hinf.2]
    push_cast; rfl

/-- the assertions of `pbqp_add` do not catch overflow of unsigned costs: two finite costs add up to 0 -/
theorem pbqpAdd32_wrong : pbqpAdd32 (2 ^ 31) (2 ^ 31) = some 0 := by decide

/-! ## Examples -/

/-- a path of three nodes with two alternatives each; equal alternatives of neighbours exclude each other or cost 4 -/
def pbqpPath : St :=
  ⟨fun v => if v = 0 then [1, 0] else if v = 1 then [5, 0] else [0, 7], [0, 1, 2],
    [⟨0, 1, ⟨2, 2, [⊤, 0, 0, ⊤]⟩⟩, ⟨1, 2, ⟨2, 2, [4, 0, 0, 4]⟩⟩]⟩

/-- the invariant holds for it -/
theorem pbqpPath_inv : PbqpInv pbqpPath :=
  ⟨by decide, by decide, fun e he => by
    simp only [pbqpPath, List.mem_cons, List.not_mem_nil, or_false] at he
    rcases he with rfl | rfl <;> exact ⟨by decide, by decide, by decide, by decide, by decide, by rfl⟩, by decide⟩

/-- reducing the inner node (degree two), then the first (degree one), solves it with cost 1 -/
theorem pbqpPath_solved : ∃ σ, SolveBrute pbqpPath 1 σ ∧ σ 0 = 0 ∧ σ 1 = 1 ∧ σ 2 = 0 := by
  let e : Edge := ⟨0, 1, ⟨2, 2, [⊤, 0, 0, ⊤]⟩⟩
  let f : Edge := ⟨1, 2, ⟨2, 2, [4, 0, 0, 4]⟩⟩
  let g : Edge := ⟨0, 2, ⟨2, 2, [0, 4, 9, 5]⟩⟩
  let st₁ := applyRII pbqpPath 1 e f []
  let st₂ := applyRI st₁ 0 g []
  have s1 : Step pbqpPath (.rii 1 (pbqpPath.vec 1) e f) st₁ :=
    .rii (by decide) (List.Perm.refl _) (by decide) (by decide) (by simp) (by decide)
  have s2 : Step st₁ (.ri 0 (st₁.vec 0) { g with mat := (reduceRI st₁ 0 g).1 }) st₂ := .ri (by decide) (by decide) (by decide) (by simp)
  have h2 : SolveBrute st₂ (determineSolution st₂) (r0 st₂) := .done rfl
  rw [show determineSolution st₂ = 1 by decide] at h2
  exact ⟨_, .step s1 (.step s2 h2), by decide⟩

/-- the optimum of the path, by the theorem -/
example : ∃ σ, (pbqp pbqpPath).Optimal σ ∧ (pbqp pbqpPath).total σ = 1 := by
  obtain ⟨σ, h, _⟩ := pbqpPath_solved
  exact ⟨σ, pbqp_brute_optimal pbqpPath_inv h⟩

/-- a solution of the heuristic solver that selects alternative 0 of the inner node first: cost 9, not optimal -/
example : ∃ σ, SolveHeur pbqpPath 9 σ ∧ (pbqp pbqpPath).total σ = 9 := by
  have h : SolveHeur pbqpPath 9 (r0 (select pbqpPath 1 0)) :=
    .rn (v := 1) (k := 0) (by decide) (by decide) (cast (by rfl) (SolveHeur.done (st := select pbqpPath 1 0) (by decide)))
  exact ⟨_, h, (pbqp_heur_cost pbqpPath_inv h).2.2 (by decide)⟩

/-- a problem built by calls, with a self loop and an edge given in reverse order -/
example : ∃ st, Built [.node 0 [1, 2], .node 1 [3, 4], .edge 1 0 ⟨2, 2, [0, 1, 2, 3]⟩, .edge 0 0 ⟨2, 2, [5, 6, 7, 8]⟩] st :=
  ⟨_, .snoc (ops := [_, _, _]) (.snoc (ops := [_, _]) (.snoc (ops := [_]) (.snoc (ops := []) (.nil fun _ => []) ⟨by decide, by decide⟩)
    ⟨by decide, by decide⟩) ⟨by decide, by decide, by decide, by decide, by rfl⟩) ⟨by decide, by decide, by decide, by decide, by rfl⟩⟩

end Verif.Props
