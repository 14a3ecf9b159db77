import Verif.Lemmas.Pbqp
import Mathlib.Algebra.Order.BigOperators.Group.List
/-!
# The effect of the single reduction steps on the cost of selections

`pbqp` reads the state of the solver as a problem in the sense of `Verif.Spec.Pbqp`.
-/
namespace Verif.Props
open Verif.Model.Pbqp Verif.Spec.Pbqp

/-- the problem a state stands for -/
def pbqp (st : St) : Problem :=
  ⟨st.live, fun v => (st.vec v).length, fun v i => vget (st.vec v) i, st.edges.map fun e => (e.src, e.tgt, fun i j => e.mat.get i j)⟩

/-- an edge of the problem: ordered, between nodes of the problem, with a matrix of the right size -/
structure EdgeOk (vec : Nat → Vec) (live : List Nat) (e : Edge) : Prop where
  lt : e.src < e.tgt
  src : e.src ∈ live
  tgt : e.tgt ∈ live
  rows : e.mat.rows = (vec e.src).length
  cols : e.mat.cols = (vec e.tgt).length
  full : e.mat.Full

/-- invariant of the solver: every node has an alternative, edges are well-formed and there is at most one per pair of nodes -/
structure PbqpInv (st : St) : Prop where
  nodup : st.live.Nodup
  pos : ∀ v ∈ st.live, 0 < (st.vec v).length
  edge : ∀ e ∈ st.edges, EdgeOk st.vec st.live e
  keys : (st.edges.map fun e => (e.src, e.tgt)).Nodup

/-! ## Helpers -/

theorem total_eq (st : St) (σ : Nat → Nat) : (pbqp st).total σ = nodeSum st.vec st.live σ + edgeSum st.edges σ := by
  simp [pbqp, Problem.total, nodeSum, edgeSum, List.map_map, Function.comp_def]

theorem EdgeOk.congr {vec vec' : Nat → Vec} {live : List Nat} {e : Edge} (h : EdgeOk vec live e)
    (hl : ∀ v, (vec' v).length = (vec v).length) : EdgeOk vec' live e :=
  ⟨h.lt, h.src, h.tgt, by rw [hl]; exact h.rows, by rw [hl]; exact h.cols, h.full⟩

theorem EdgeOk.erase {vec : Nat → Vec} {live : List Nat} {e : Edge} {v : Nat} (h : EdgeOk vec live e) (hv : ¬ e.Inc v) :
    EdgeOk vec (live.erase v) e :=
  ⟨h.lt, (List.mem_erase_of_ne fun hh => hv (Or.inl hh)).mpr h.src, (List.mem_erase_of_ne fun hh => hv (Or.inr hh)).mpr h.tgt,
    h.rows, h.cols, h.full⟩

theorem upd_length {vec : Nat → Vec} {v : Nat} {x : Vec} (h : x.length = (vec v).length) (u : Nat) :
    (upd vec v x u).length = (vec u).length := by
  unfold upd; split
  · rename_i hh; rw [hh, h]
  · rfl

/-- the entry of an edge for alternative `i` of the node `v` and `j` of the other node -/
def Edge.entry (e : Edge) (v i j : Nat) : ℕ∞ := if e.src = v then e.mat.get i j else e.mat.get j i

theorem other_ne {vec : Nat → Vec} {live : List Nat} {e : Edge} {v : Nat} (h : EdgeOk vec live e) (hv : e.Inc v) : e.other v ≠ v := by
  have := h.lt
  unfold Edge.other
  split
  · omega
  · rcases hv with hv | hv
    · contradiction
    · omega

theorem other_mem {vec : Nat → Vec} {live : List Nat} {e : Edge} {v : Nat} (h : EdgeOk vec live e) : e.other v ∈ live := by
  unfold Edge.other; split
  · exact h.tgt
  · exact h.src

theorem other_inc (e : Edge) (v : Nat) : e.Inc (e.other v) := by
  unfold Edge.other Edge.Inc; split <;> simp

theorem entry_cost {e : Edge} {v : Nat} (hv : e.Inc v) (σ : Nat → Nat) :
    e.mat.get (σ e.src) (σ e.tgt) = Edge.entry e v (σ v) (σ (e.other v)) := by
  unfold Edge.entry Edge.other
  by_cases h : e.src = v
  · rw [if_pos h, if_pos h, h]
  · rcases hv with hv | hv
    · contradiction
    · rw [if_neg h, if_neg h, hv]

theorem keys_perm {es es' : List Edge} (h : es.Perm es') (hk : (es.map fun e => (e.src, e.tgt)).Nodup) :
    (es'.map fun e => (e.src, e.tgt)).Nodup := (h.map _).nodup_iff.mp hk

/-! ## Simplifying an edge -/

theorem simplify_length {st : St} {e : Edge} {rest : List Edge} (he : EdgeOk st.vec st.live e) (v : Nat) :
    ((simplify st e rest).vec v).length = (st.vec v).length := by
  unfold simplify
  obtain ⟨a1, a2, a3, a4⟩ := normSrc_dims he.rows he.cols
  have hc : (normSrc e.mat (st.vec e.src) (st.vec e.tgt)).1.cols = (st.vec e.tgt).length := by rw [a2, he.cols]
  obtain ⟨b1, b2, b3, b4⟩ := normTgt_dims (src := (normSrc e.mat (st.vec e.src) (st.vec e.tgt)).2) hc
  have hne : e.tgt ≠ e.src := by have := he.lt; omega
  simp only
  rw [upd_length (by rw [upd_ne _ _ hne, b4]), upd_length a4]

theorem simplify_inv {st : St} (hi : PbqpInv st) {e : Edge} {rest : List Edge} (h : st.edges.Perm (e :: rest)) :
    PbqpInv (simplify st e rest) := by
  have he := hi.edge e (h.mem_iff.mpr List.mem_cons_self)
  have hlen := simplify_length (rest := rest) he
  have hk := keys_perm h hi.keys
  have hrest : ∀ f ∈ rest, EdgeOk (simplify st e rest).vec st.live f := fun f hf =>
    (hi.edge f (h.mem_iff.mpr (List.mem_cons_of_mem _ hf))).congr hlen
  obtain ⟨a1, a2, a3, a4⟩ := normSrc_dims he.rows he.cols
  have hc : (normSrc e.mat (st.vec e.src) (st.vec e.tgt)).1.cols = (st.vec e.tgt).length := by rw [a2, he.cols]
  obtain ⟨b1, b2, b3, b4⟩ := normTgt_dims (src := (normSrc e.mat (st.vec e.src) (st.vec e.tgt)).2) hc
  refine ⟨hi.nodup, fun v hv => by rw [hlen]; exact hi.pos v hv, ?_, ?_⟩
  · intro f hf
    have hf' : f ∈ if isZero (normTgt (normSrc e.mat (st.vec e.src) (st.vec e.tgt)).1 (normSrc e.mat (st.vec e.src) (st.vec e.tgt)).2 (st.vec e.tgt)).1
        (normSrc e.mat (st.vec e.src) (st.vec e.tgt)).2
        (normTgt (normSrc e.mat (st.vec e.src) (st.vec e.tgt)).1 (normSrc e.mat (st.vec e.src) (st.vec e.tgt)).2 (st.vec e.tgt)).2
      then rest else { e with mat := (normTgt (normSrc e.mat (st.vec e.src) (st.vec e.tgt)).1
        (normSrc e.mat (st.vec e.src) (st.vec e.tgt)).2 (st.vec e.tgt)).1 } :: rest := hf
    split at hf'
    · exact hrest f hf'
    · rcases List.mem_cons.mp hf' with hf' | hf'
      · subst hf'
        exact ⟨he.lt, he.src, he.tgt, by rw [hlen]; exact b1.trans (a1.trans he.rows), by rw [hlen]; exact b2.trans hc,
          b3 (a3 he.full)⟩
      · exact hrest f hf'
  · unfold simplify
    simp only
    split
    · exact (List.nodup_cons.mp hk).2
    · exact hk

theorem simplify_total {st : St} (hi : PbqpInv st) {e : Edge} {rest : List Edge} (h : st.edges.Perm (e :: rest)) {σ : Nat → Nat}
    (hσ : (pbqp st).Selection σ) : (pbqp (simplify st e rest)).total σ = (pbqp st).total σ := by
  have he := hi.edge e (h.mem_iff.mpr List.mem_cons_self)
  obtain ⟨a1, a2, a3, a4⟩ := normSrc_dims he.rows he.cols
  have hc : (normSrc e.mat (st.vec e.src) (st.vec e.tgt)).1.cols = (st.vec e.tgt).length := by rw [a2, he.cols]
  obtain ⟨b1, b2, b3, b4⟩ := normTgt_dims (src := (normSrc e.mat (st.vec e.src) (st.vec e.tgt)).2) hc
  have hs : σ e.src < (st.vec e.src).length := hσ _ he.src
  have ht : σ e.tgt < (st.vec e.tgt).length := hσ _ he.tgt
  have s1 := normSrc_sum he.rows he.cols hs ht
  have s2 := normTgt_sum (m := (normSrc e.mat (st.vec e.src) (st.vec e.tgt)).1) (tgt := st.vec e.tgt)
    (src := (normSrc e.mat (st.vec e.src) (st.vec e.tgt)).2) (by rw [a1, a4, he.rows]) hc
    (by rw [a4]; exact hs) ht
  have hz : isZero (normTgt (normSrc e.mat (st.vec e.src) (st.vec e.tgt)).1 (normSrc e.mat (st.vec e.src) (st.vec e.tgt)).2 (st.vec e.tgt)).1
        (normSrc e.mat (st.vec e.src) (st.vec e.tgt)).2
        (normTgt (normSrc e.mat (st.vec e.src) (st.vec e.tgt)).1 (normSrc e.mat (st.vec e.src) (st.vec e.tgt)).2 (st.vec e.tgt)).2 = true → _ :=
    fun hz => isZero_spec hz (i := σ e.src) (j := σ e.tgt) (by rw [b1, a1, he.rows]; exact hs) (by rw [b2, hc]; exact ht)
  rw [total_eq, total_eq, edgeSum_perm h, edgeSum_cons]
  unfold simplify
  simp only
  have hne : e.src ≠ e.tgt := Nat.ne_of_lt he.lt
  have hmem : e.src ∈ st.live.erase e.tgt := (List.mem_erase_of_ne hne).mpr he.src
  rw [nodeSum_upd hi.nodup he.tgt, nodeSum_upd (hi.nodup.erase _) hmem, nodeSum_erase he.tgt, nodeSum_erase hmem]
  generalize normSrc e.mat (st.vec e.src) (st.vec e.tgt) = r at *
  generalize normTgt r.1 r.2 (st.vec e.tgt) = q at *
  have key : vget q.2 (σ e.tgt) + vget r.2 (σ e.src) + q.1.get (σ e.src) (σ e.tgt) =
      vget (st.vec e.tgt) (σ e.tgt) + vget (st.vec e.src) (σ e.src) + e.mat.get (σ e.src) (σ e.tgt) := by
    calc _ = vget r.2 (σ e.src) + q.1.get (σ e.src) (σ e.tgt) + vget q.2 (σ e.tgt) := by ring
      _ = vget r.2 (σ e.src) + r.1.get (σ e.src) (σ e.tgt) + vget (st.vec e.tgt) (σ e.tgt) := s2
      _ = vget (st.vec e.src) (σ e.src) + e.mat.get (σ e.src) (σ e.tgt) + vget (st.vec e.tgt) (σ e.tgt) := s1
      _ = _ := by ring
  generalize nodeSum st.vec ((st.live.erase e.tgt).erase e.src) σ = N at *
  have key2 : edgeSum (if isZero q.1 r.2 q.2 = true then rest else { e with mat := q.1 } :: rest) σ +
      (vget q.2 (σ e.tgt) + vget r.2 (σ e.src)) =
      vget q.2 (σ e.tgt) + vget r.2 (σ e.src) + q.1.get (σ e.src) (σ e.tgt) + edgeSum rest σ := by
    split
    · rename_i hq
      rcases hz hq with h' | h' | h'
      · rw [h']; simp
      · rw [h']; simp
      · rw [h']; ring
    · rw [edgeSum_cons]; simp only; ring
  calc _ = (edgeSum (if isZero q.1 r.2 q.2 = true then rest else { e with mat := q.1 } :: rest) σ +
      (vget q.2 (σ e.tgt) + vget r.2 (σ e.src))) + N := by ring
    _ = (vget q.2 (σ e.tgt) + vget r.2 (σ e.src) + q.1.get (σ e.src) (σ e.tgt)) + edgeSum rest σ + N := by rw [key2]
    _ = _ := by rw [key]; ring

/-! ## Nodes of degree one -/

/-- the minimum moved to alternative `j` of the neighbour -/
def riMin (st : St) (v : Nat) (e : Edge) (j : Nat) : ℕ∞ :=
  (scan (st.vec v).length (fun i => decide (vget (st.vec v) i = ⊤)) fun i => Edge.entry e v i j + vget (st.vec v) i).2

/-- the alternative back propagation selects -/
def riIndex (st : St) (v : Nat) (e : Edge) (j : Nat) : Nat :=
  (scan (st.vec v).length (fun i => decide (vget (st.vec v) i = ⊤))
    fun i => normEntry (vget (st.vec v) i) (vget (st.vec (e.other v)) j) (riMin st v e j) (Edge.entry e v i j + vget (st.vec v) i)).1

theorem reduceRI_spec {st : St} {v : Nat} {e : Edge} (he : EdgeOk st.vec st.live e) (hv : e.Inc v) :
    (reduceRI st v e).2.length = (st.vec (e.other v)).length ∧
    (∀ j < (st.vec (e.other v)).length, vget (reduceRI st v e).2 j = vget (st.vec (e.other v)) j + riMin st v e j) ∧
    (∀ σ : Nat → Nat, σ (e.other v) < (st.vec (e.other v)).length →
      (Red.ri v (st.vec v) { e with mat := (reduceRI st v e).1 }).extend σ v = riIndex st v e (σ (e.other v))) := by
  unfold reduceRI riIndex riMin Edge.entry Edge.other Red.extend
  by_cases h : e.src = v
  · subst h
    simp only [if_true]
    have hr : (addToAllCols e.mat (st.vec e.src)).rows = (st.vec e.src).length := he.rows
    have hc : (addToAllCols e.mat (st.vec e.src)).cols = (st.vec e.tgt).length := he.cols
    have hget : ∀ i < (st.vec e.src).length, ∀ j < (st.vec e.tgt).length,
        (addToAllCols e.mat (st.vec e.src)).get i j = e.mat.get i j + vget (st.vec e.src) i := fun i hi j hj => by
      unfold addToAllCols
      rw [get_build _ (by rw [he.rows]; exact hi) (by rw [he.cols]; exact hj)]
    have hmin : ∀ j < (st.vec e.tgt).length, colMin (addToAllCols e.mat (st.vec e.src)) j (st.vec e.src) =
        (scan (st.vec e.src).length (fun i => decide (vget (st.vec e.src) i = ⊤)) fun i => e.mat.get i j + vget (st.vec e.src) i).2 :=
      fun j hj => by
        unfold colMin
        rw [hr]
        congr 1
        exact scan_congr (fun _ _ => rfl) fun i hi => hget i hi j hj
    refine ⟨(normTgt_dims hc).2.2.2, fun j hj => ?_, fun σ hσ => ?_⟩
    · rw [normTgt_vec hc hj, hmin j hj]
    · unfold colMinIndex
      rw [(normTgt_dims hc).1, hr]
      congr 1
      refine scan_congr (fun _ _ => rfl) fun i hi => ?_
      rw [normTgt_get hc (by rw [hr]; exact hi) hσ, hmin _ hσ, hget i hi _ hσ]
  · have ht : e.tgt = v := by rcases hv with hv | hv; exact absurd hv h; exact hv
    subst ht
    simp only [h, if_false, if_true]
    have hr : (addToAllRows e.mat (st.vec e.tgt)).rows = (st.vec e.src).length := he.rows
    have hc : (addToAllRows e.mat (st.vec e.tgt)).cols = (st.vec e.tgt).length := he.cols
    have hget : ∀ i < (st.vec e.src).length, ∀ j < (st.vec e.tgt).length,
        (addToAllRows e.mat (st.vec e.tgt)).get i j = e.mat.get i j + vget (st.vec e.tgt) j := fun i hi j hj => by
      unfold addToAllRows
      rw [get_build _ (by rw [he.rows]; exact hi) (by rw [he.cols]; exact hj)]
    have hmin : ∀ i < (st.vec e.src).length, rowMin (addToAllRows e.mat (st.vec e.tgt)) i (st.vec e.tgt) =
        (scan (st.vec e.tgt).length (fun j => decide (vget (st.vec e.tgt) j = ⊤)) fun j => e.mat.get i j + vget (st.vec e.tgt) j).2 :=
      fun i hi => by
        unfold rowMin
        congr 1
        exact scan_congr (fun _ _ => rfl) fun j hj => hget i hi j hj
    refine ⟨(normSrc_dims hr hc).2.2.2, fun j hj => ?_, fun σ hσ => ?_⟩
    · rw [normSrc_vec hr hc hj, hmin j hj]
    · unfold rowMinIndex
      congr 1
      refine scan_congr (fun _ _ => rfl) fun j hj => ?_
      rw [normSrc_get hr hc hσ hj, hmin _ hσ, hget _ hσ j hj]

theorem applyRI_inv {st : St} (hi : PbqpInv st) {v : Nat} {e : Edge} {rest : List Edge} (hv : v ∈ st.live)
    (h : st.edges.Perm (e :: rest)) (he : e.Inc v) (hr : ∀ f ∈ rest, ¬ f.Inc v) : PbqpInv (applyRI st v e rest) := by
  have ok := hi.edge e (h.mem_iff.mpr List.mem_cons_self)
  have hlen : ∀ u, ((applyRI st v e rest).vec u).length = (st.vec u).length := fun u =>
    upd_length (reduceRI_spec ok he).1 u
  refine ⟨hi.nodup.erase _, fun u hu => by rw [hlen]; exact hi.pos u (List.mem_of_mem_erase hu), fun f hf => ?_,
    (List.nodup_cons.mp (keys_perm h hi.keys)).2⟩
  exact ((hi.edge f (h.mem_iff.mpr (List.mem_cons_of_mem _ hf))).erase (hr f hf)).congr hlen

theorem applyRI_extend {st : St} (hi : PbqpInv st) {v : Nat} {e : Edge} {rest : List Edge} (hv : v ∈ st.live)
    (h : st.edges.Perm (e :: rest)) (he : e.Inc v) (hr : ∀ f ∈ rest, ¬ f.Inc v) {σ : Nat → Nat}
    (hσ : (pbqp (applyRI st v e rest)).Selection σ) :
    let σ' := (Red.ri v (st.vec v) { e with mat := (reduceRI st v e).1 }).extend σ
    (pbqp st).Selection σ' ∧ (pbqp st).total σ' = (pbqp (applyRI st v e rest)).total σ := by
  intro σ'
  have ok := hi.edge e (h.mem_iff.mpr List.mem_cons_self)
  obtain ⟨r1, r2, r3⟩ := reduceRI_spec ok he
  have hlen : ∀ u, ((applyRI st v e rest).vec u).length = (st.vec u).length := fun u => upd_length r1 u
  have hne := other_ne ok he
  have hw : e.other v ∈ st.live := other_mem ok
  have hwe : e.other v ∈ st.live.erase v := (List.mem_erase_of_ne hne).mpr hw
  have hσw : σ (e.other v) < (st.vec (e.other v)).length := by
    have := hσ _ hwe
    rw [← hlen]; exact this
  have hσv : σ' v = riIndex st v e (σ (e.other v)) := r3 σ hσw
  have hσu : ∀ u, u ≠ v → σ' u = σ u := fun u hu => by simp only [σ', Red.extend, hu, if_false]
  have hlt : σ' v < (st.vec v).length := by rw [hσv]; exact scan_lt (hi.pos v hv) _ _
  refine ⟨fun u hu => ?_, ?_⟩
  · by_cases huv : u = v
    · subst huv; exact hlt
    · rw [hσu u huv]
      have := hσ u ((List.mem_erase_of_ne huv).mpr hu)
      change σ u < (st.vec u).length
      rw [← hlen]; exact this
  · rw [total_eq, total_eq, edgeSum_perm h, edgeSum_cons, entry_cost he, hσu _ hne, nodeSum_erase hv]
    have n1 : nodeSum st.vec (st.live.erase v) σ' = nodeSum st.vec (st.live.erase v) σ := nodeSum_congr fun u hu => by
      rw [hσu u fun hh => by subst hh; exact absurd hu (List.Nodup.not_mem_erase hi.nodup)]
    have n2 : edgeSum rest σ' = edgeSum rest σ := edgeSum_congr fun f hf =>
      ⟨hσu _ fun hh => hr f hf (Or.inl hh), hσu _ fun hh => hr f hf (Or.inr hh)⟩
    rw [n1, n2, nodeSum_erase hwe]
    unfold applyRI
    simp only
    rw [nodeSum_upd (hi.nodup.erase _) hwe, r2 _ hσw, hσv]
    generalize nodeSum st.vec ((st.live.erase v).erase (e.other v)) σ = N
    by_cases ho : vget (st.vec (e.other v)) (σ (e.other v)) = ⊤
    · rw [ho]; simp
    · have key := scan_normEntry (hi.pos v hv) (fun i => vget (st.vec v) i)
        (fun i => Edge.entry e v i (σ (e.other v)) + vget (st.vec v) i) _ (fun k _ hk => by simp only [hk]; simp) ho
      change Edge.entry e v (riIndex st v e (σ (e.other v))) (σ (e.other v)) + vget (st.vec v) (riIndex st v e (σ (e.other v)))
        = riMin st v e (σ (e.other v)) at key
      rw [← key]; ring

theorem applyRI_le {st : St} (hi : PbqpInv st) {v : Nat} {e : Edge} {rest : List Edge} (hv : v ∈ st.live)
    (h : st.edges.Perm (e :: rest)) (he : e.Inc v) {σ : Nat → Nat}
    (hσ : (pbqp st).Selection σ) :
    (pbqp (applyRI st v e rest)).Selection σ ∧ (pbqp (applyRI st v e rest)).total σ ≤ (pbqp st).total σ := by
  have ok := hi.edge e (h.mem_iff.mpr List.mem_cons_self)
  obtain ⟨r1, r2, r3⟩ := reduceRI_spec ok he
  have hlen : ∀ u, ((applyRI st v e rest).vec u).length = (st.vec u).length := fun u => upd_length r1 u
  have hne := other_ne ok he
  have hw : e.other v ∈ st.live := other_mem ok
  have hwe : e.other v ∈ st.live.erase v := (List.mem_erase_of_ne hne).mpr hw
  have hσw : σ (e.other v) < (st.vec (e.other v)).length := hσ _ hw
  refine ⟨fun u hu => ?_, ?_⟩
  · change σ u < ((applyRI st v e rest).vec u).length
    rw [hlen]; exact hσ u (List.mem_of_mem_erase hu)
  · rw [total_eq, total_eq, edgeSum_perm h, edgeSum_cons, entry_cost he, nodeSum_erase hv, nodeSum_erase hwe]
    unfold applyRI
    simp only
    rw [nodeSum_upd (hi.nodup.erase _) hwe, r2 _ hσw]
    generalize nodeSum st.vec ((st.live.erase v).erase (e.other v)) σ = N
    by_cases ho : vget (st.vec v) (σ v) = ⊤
    · rw [ho]; simp
    · have hle : riMin st v e (σ (e.other v)) ≤ Edge.entry e v (σ v) (σ (e.other v)) + vget (st.vec v) (σ v) :=
        (scan_spec _ _ _).1 (σ v) (hσ v hv) (by simpa using ho)
      calc _ = riMin st v e (σ (e.other v)) + (vget (st.vec (e.other v)) (σ (e.other v)) + N + edgeSum rest σ) := by ring
        _ ≤ (Edge.entry e v (σ v) (σ (e.other v)) + vget (st.vec v) (σ v)) + (vget (st.vec (e.other v)) (σ (e.other v)) + N + edgeSum rest σ) :=
          add_le_add hle (le_refl _)
        _ = _ := by ring

/-! ## Nodes of degree two -/

theorem addSide_length (vec : Vec) (e : Edge) (v i : Nat) : (addSide vec e v i).length = vec.length := by
  unfold addSide; split <;> simp [vecAddCol, vecAddRow, vbuild_length]

theorem vget_addSide {vec : Vec} {e : Edge} {v i k : Nat} (hk : k < vec.length) :
    vget (addSide vec e v i) k = vget vec k + Edge.entry e v k i := by
  unfold addSide Edge.entry
  split
  · exact vget_vbuild _ hk
  · exact vget_vbuild _ hk

theorem riiVec_length (vec : Vec) (v : Nat) (e f : Edge) (i j : Nat) : (riiVec vec v e f i j).length = vec.length := by
  simp [riiVec, addSide_length]

theorem vget_riiVec {vec : Vec} {v : Nat} {e f : Edge} {i j k : Nat} (hk : k < vec.length) :
    vget (riiVec vec v e f i j) k = vget vec k + Edge.entry e v k i + Edge.entry f v k j := by
  unfold riiVec
  rw [vget_addSide (by rw [addSide_length]; exact hk), vget_addSide hk]

/-- the matrix of the new edge -/
def riiMat (st : St) (v : Nat) (e f : Edge) : Mat :=
  Mat.build (st.vec (e.other v)).length (st.vec (f.other v)).length fun i j => vecMin (riiVec (st.vec v) v e f i j)

theorem addTo_ok {vec : Nat → Vec} {live : List Nat} {es : List Edge} {a b : Nat} {m : Mat} (h : ∀ e ∈ es, EdgeOk vec live e)
    (hm : EdgeOk vec live ⟨a, b, m⟩) : ∀ f ∈ addTo es a b m, EdgeOk vec live f := by
  intro f hf
  rcases addTo_mem hf with hf | hf | ⟨e, he, hea, heb, hf⟩
  · exact h f hf
  · rw [hf]; exact hm
  · have ok := h e he
    have hr : m.rows = e.mat.rows := by rw [ok.rows, hea]; exact hm.rows
    have hc : m.cols = e.mat.cols := by rw [ok.cols, heb]; exact hm.cols
    rw [hf]
    exact ⟨ok.lt, ok.src, ok.tgt, ok.rows, ok.cols, add_full hr hc ok.full hm.full⟩

theorem addTo_total {vec : Nat → Vec} {live : List Nat} {es : List Edge} {a b : Nat} {m : Mat} {σ : Nat → Nat}
    (h : ∀ e ∈ es, EdgeOk vec live e) (hm : EdgeOk vec live ⟨a, b, m⟩) (ha : σ a < (vec a).length) (hb : σ b < (vec b).length) :
    edgeSum (addTo es a b m) σ = edgeSum es σ + m.get (σ a) (σ b) := by
  refine addTo_sum (fun e he hea heb => ?_) hm.full (by rw [hm.rows]; exact ha) (by rw [hm.cols]; exact hb)
  have ok := h e he
  exact ⟨by rw [ok.rows, hea]; exact hm.rows.symm, by rw [ok.cols, heb]; exact hm.cols.symm, ok.full⟩

theorem transpose_get {m : Mat} {i j : Nat} (hi : i < m.cols) (hj : j < m.rows) : m.transpose.get i j = m.get j i :=
  get_build _ hi hj

theorem addEdgeCosts_ok {vec : Nat → Vec} {live : List Nat} {es : List Edge} {a b : Nat} {m : Mat} (h : ∀ e ∈ es, EdgeOk vec live e)
    (hab : a ≠ b) (ha : a ∈ live) (hb : b ∈ live) (hr : m.rows = (vec a).length) (hc : m.cols = (vec b).length) (hf : m.Full) :
    ∀ f ∈ addEdgeCosts es a b m, EdgeOk vec live f := by
  unfold addEdgeCosts
  split
  · exact addTo_ok h ⟨by assumption, hb, ha, hc, hr, build_full _ _ _⟩
  · exact addTo_ok h ⟨by change a < b; omega, ha, hb, hr, hc, hf⟩

theorem addEdgeCosts_nodup {es : List Edge} (h : (es.map fun e => (e.src, e.tgt)).Nodup) (a b : Nat) (m : Mat) :
    ((addEdgeCosts es a b m).map fun e => (e.src, e.tgt)).Nodup := by
  unfold addEdgeCosts
  split
  · exact addTo_nodup h _ _ _
  · exact addTo_nodup h _ _ _

theorem addEdgeCosts_total {vec : Nat → Vec} {live : List Nat} {es : List Edge} {a b : Nat} {m : Mat} {σ : Nat → Nat}
    (h : ∀ e ∈ es, EdgeOk vec live e) (hab : a ≠ b) (hla : a ∈ live) (hlb : b ∈ live) (hr : m.rows = (vec a).length)
    (hc : m.cols = (vec b).length) (hf : m.Full) (ha : σ a < (vec a).length) (hb : σ b < (vec b).length) :
    edgeSum (addEdgeCosts es a b m) σ = edgeSum es σ + m.get (σ a) (σ b) := by
  unfold addEdgeCosts
  split
  · rw [addTo_total (m := m.transpose) h ⟨by assumption, hlb, hla, hc, hr, build_full _ _ _⟩ hb ha, transpose_get (by omega) (by omega)]
  · exact addTo_total h ⟨by change a < b; omega, hla, hlb, hr, hc, hf⟩ ha hb

theorem rii_facts {st : St} (hi : PbqpInv st) {v : Nat} {e f : Edge} {rest : List Edge}
    (h : st.edges.Perm (e :: f :: rest)) (he : e.Inc v) (hf : f.Inc v) (hr : ∀ g ∈ rest, ¬ g.Inc v) (hlt : e.other v < f.other v) :
    EdgeOk st.vec st.live e ∧ EdgeOk st.vec st.live f ∧ (∀ g ∈ rest, EdgeOk st.vec (st.live.erase v) g) ∧
    EdgeOk st.vec (st.live.erase v) ⟨e.other v, f.other v, riiMat st v e f⟩ := by
  have oke := hi.edge e (h.mem_iff.mpr List.mem_cons_self)
  have okf := hi.edge f (h.mem_iff.mpr (List.mem_cons_of_mem _ List.mem_cons_self))
  refine ⟨oke, okf, fun g hg => (hi.edge g (h.mem_iff.mpr (List.mem_cons_of_mem _ (List.mem_cons_of_mem _ hg)))).erase (hr g hg), ?_⟩
  exact ⟨hlt, (List.mem_erase_of_ne (other_ne oke he)).mpr (other_mem oke), (List.mem_erase_of_ne (other_ne okf hf)).mpr (other_mem okf),
    rfl, rfl, build_full _ _ _⟩

theorem applyRII_inv {st : St} (hi : PbqpInv st) {v : Nat} {e f : Edge} {rest : List Edge}
    (h : st.edges.Perm (e :: f :: rest)) (he : e.Inc v) (hf : f.Inc v) (hr : ∀ g ∈ rest, ¬ g.Inc v) (hlt : e.other v < f.other v) :
    PbqpInv (applyRII st v e f rest) := by
  obtain ⟨_, _, okr, okn⟩ := rii_facts hi h he hf hr hlt
  refine ⟨hi.nodup.erase _, fun u hu => hi.pos u (List.mem_of_mem_erase hu), addTo_ok okr okn, ?_⟩
  have := keys_perm h hi.keys
  exact addTo_nodup (List.nodup_cons.mp (List.nodup_cons.mp this).2).2 _ _ _

/-- the cost of the reduced problem: the node contributes the minimum over its alternatives -/
theorem applyRII_total {st : St} (hi : PbqpInv st) {v : Nat} {e f : Edge} {rest : List Edge}
    (h : st.edges.Perm (e :: f :: rest)) (he : e.Inc v) (hf : f.Inc v) (hr : ∀ g ∈ rest, ¬ g.Inc v) (hlt : e.other v < f.other v)
    {σ : Nat → Nat} (hσ : ∀ u ∈ st.live.erase v, σ u < (st.vec u).length) :
    (pbqp (applyRII st v e f rest)).total σ = nodeSum st.vec (st.live.erase v) σ + edgeSum rest σ +
      vecMin (riiVec (st.vec v) v e f (σ (e.other v)) (σ (f.other v))) := by
  obtain ⟨_, _, okr, okn⟩ := rii_facts hi h he hf hr hlt
  rw [total_eq]
  have ha : σ (e.other v) < (st.vec (e.other v)).length := hσ _ okn.src
  have hb : σ (f.other v) < (st.vec (f.other v)).length := hσ _ okn.tgt
  have hs := addTo_total (σ := σ) okr okn ha hb
  change nodeSum st.vec (st.live.erase v) σ + edgeSum (addTo rest (e.other v) (f.other v) (riiMat st v e f)) σ = _
  rw [hs]
  unfold riiMat
  rw [get_build _ ha hb]
  ring

theorem applyRII_extend {st : St} (hi : PbqpInv st) {v : Nat} {e f : Edge} {rest : List Edge} (hv : v ∈ st.live)
    (h : st.edges.Perm (e :: f :: rest)) (he : e.Inc v) (hf : f.Inc v) (hr : ∀ g ∈ rest, ¬ g.Inc v) (hlt : e.other v < f.other v)
    {σ : Nat → Nat} (hσ : (pbqp (applyRII st v e f rest)).Selection σ) :
    let σ' := (Red.rii v (st.vec v) e f).extend σ
    (pbqp st).Selection σ' ∧ (pbqp st).total σ' = (pbqp (applyRII st v e f rest)).total σ := by
  intro σ'
  obtain ⟨oke, okf, okr, okn⟩ := rii_facts hi h he hf hr hlt
  have hσv : σ' v = vecMinIndex (riiVec (st.vec v) v e f (σ (e.other v)) (σ (f.other v))) := by simp only [σ', Red.extend, if_true]
  have hσu : ∀ u, u ≠ v → σ' u = σ u := fun u hu => by simp only [σ', Red.extend, hu, if_false]
  have hpos : 0 < (riiVec (st.vec v) v e f (σ (e.other v)) (σ (f.other v))).length := by rw [riiVec_length]; exact hi.pos v hv
  have hlt' : σ' v < (st.vec v).length := by
    rw [hσv, ← riiVec_length (st.vec v) v e f (σ (e.other v)) (σ (f.other v))]
    exact vecMinIndex_lt hpos
  refine ⟨fun u hu => ?_, ?_⟩
  · by_cases huv : u = v
    · subst huv; exact hlt'
    · rw [hσu u huv]; exact hσ u ((List.mem_erase_of_ne huv).mpr hu)
  · rw [applyRII_total hi h he hf hr hlt hσ, ← vget_vecMinIndex hpos, ← hσv, vget_riiVec hlt', total_eq, edgeSum_perm h, edgeSum_cons,
      edgeSum_cons, entry_cost he, entry_cost hf, hσu _ (other_ne oke he), hσu _ (other_ne okf hf), nodeSum_erase hv]
    have n1 : nodeSum st.vec (st.live.erase v) σ' = nodeSum st.vec (st.live.erase v) σ := nodeSum_congr fun u hu => by
      rw [hσu u fun hh => by subst hh; exact absurd hu (List.Nodup.not_mem_erase hi.nodup)]
    have n2 : edgeSum rest σ' = edgeSum rest σ := edgeSum_congr fun g hg =>
      ⟨hσu _ fun hh => hr g hg (Or.inl hh), hσu _ fun hh => hr g hg (Or.inr hh)⟩
    rw [n1, n2]
    ring

theorem applyRII_le {st : St} (hi : PbqpInv st) {v : Nat} {e f : Edge} {rest : List Edge} (hv : v ∈ st.live)
    (h : st.edges.Perm (e :: f :: rest)) (he : e.Inc v) (hf : f.Inc v) (hr : ∀ g ∈ rest, ¬ g.Inc v) (hlt : e.other v < f.other v)
    {σ : Nat → Nat} (hσ : (pbqp st).Selection σ) :
    (pbqp (applyRII st v e f rest)).Selection σ ∧ (pbqp (applyRII st v e f rest)).total σ ≤ (pbqp st).total σ := by
  have hσ' : ∀ u ∈ st.live.erase v, σ u < (st.vec u).length := fun u hu => hσ u (List.mem_of_mem_erase hu)
  refine ⟨hσ', ?_⟩
  rw [applyRII_total hi h he hf hr hlt hσ', total_eq, edgeSum_perm h, edgeSum_cons,
      edgeSum_cons, entry_cost he, entry_cost hf, nodeSum_erase hv]
  have hle := vecMin_le (v := riiVec (st.vec v) v e f (σ (e.other v)) (σ (f.other v))) (k := σ v)
    (by rw [riiVec_length]; exact hσ v hv)
  rw [vget_riiVec (hσ v hv)] at hle
  refine le_trans (add_le_add (le_refl _) hle) (le_of_eq ?_)
  ring

/-! ## Merging nodes -/

theorem mergeMat_get {st : St} {e old : Edge} {a j k : Nat} (hj : j < (st.vec (e.other a)).length) (hk : k < (st.vec (old.other a)).length) :
    (mergeMat st e old a).get j k = if vget (st.vec (e.other a)) j = ⊤ ∨ vget (st.vec (old.other a)) k = ⊤ then 0
      else if old.tgt = a then old.mat.get k ((mapping st e a j).getD 0) else old.mat.get ((mapping st e a j).getD 0) k :=
  get_build _ hj hk

/-- all possible alternatives of the merged node are the one in the mapping -/
theorem mapping_spec {st : St} {e : Edge} {a i j : Nat} (hm : mergeable st e a = true) (hj : j < (st.vec (e.other a)).length)
    (hbj : vget (st.vec (e.other a)) j ≠ ⊤) (hi : i < (st.vec a).length) (hai : vget (st.vec a) i ≠ ⊤)
    (hij : Edge.entry e a i j ≠ ⊤) : mapping st e a j = some i := by
  have h1 : (mergeCandidates st e a j).length ≤ 1 := by
    have := (List.all_eq_true.mp hm) j (List.mem_range.mpr hj)
    simpa [hbj] using this
  have h2 : i ∈ mergeCandidates st e a j := by
    unfold mergeCandidates
    simp only [List.mem_filter, List.mem_range, Bool.and_eq_true, Bool.not_eq_true', decide_eq_false_iff_not]
    exact ⟨hi, hai, hij⟩
  unfold mapping
  match hl : mergeCandidates st e a j with
  | [] => rw [hl] at h2; exact absurd h2 (by simp)
  | [x] => rw [hl] at h2; simp only [List.mem_singleton] at h2; simp [h2]
  | x :: y :: l => rw [hl] at h1; simp at h1

theorem reconnect_facts {st : St} (hi : PbqpInv st) {e old : Edge} {a : Nat} {rest : List Edge}
    (h : st.edges.Perm (e :: old :: rest)) (he : e.Inc a) (ho : old.Inc a) :
    EdgeOk st.vec st.live e ∧ EdgeOk st.vec st.live old ∧ (∀ g ∈ e :: rest, EdgeOk st.vec st.live g) ∧ e.other a ≠ old.other a := by
  have oke := hi.edge e (h.mem_iff.mpr List.mem_cons_self)
  have oko := hi.edge old (h.mem_iff.mpr (List.mem_cons_of_mem _ List.mem_cons_self))
  refine ⟨oke, oko, fun g hg => ?_, fun hne => ?_⟩
  · rcases List.mem_cons.mp hg with hg | hg
    · rw [hg]; exact oke
    · exact hi.edge g (h.mem_iff.mpr (List.mem_cons_of_mem _ (List.mem_cons_of_mem _ hg)))
  · have hk := keys_perm h hi.keys
    simp only [List.map_cons, List.nodup_cons, List.mem_cons, not_or] at hk
    apply hk.1.1
    have l1 := oke.lt
    have l2 := oko.lt
    unfold Edge.other at hne
    unfold Edge.Inc at he ho
    by_cases c1 : e.src = a
    · by_cases c2 : old.src = a
      · rw [if_pos c1, if_pos c2] at hne; rw [c1, c2, hne]
      · rw [if_pos c1, if_neg c2] at hne; omega
    · by_cases c2 : old.src = a
      · rw [if_neg c1, if_pos c2] at hne; omega
      · rw [if_neg c1, if_neg c2] at hne
        have : e.tgt = old.tgt := by omega
        rw [this, hne]

theorem reconnect_inv {st : St} (hi : PbqpInv st) {e old : Edge} {a : Nat} {rest : List Edge}
    (h : st.edges.Perm (e :: old :: rest)) (he : e.Inc a) (ho : old.Inc a) : PbqpInv (reconnect st e old a rest) := by
  obtain ⟨oke, oko, okr, hne⟩ := reconnect_facts hi h he ho
  refine ⟨hi.nodup, hi.pos, addEdgeCosts_ok okr hne (other_mem oke) (other_mem oko) rfl rfl (build_full _ _ _), ?_⟩
  have hk := keys_perm h hi.keys
  refine addEdgeCosts_nodup ?_ _ _ _
  simp only [List.map_cons, List.nodup_cons, List.mem_cons, not_or] at hk ⊢
  exact ⟨hk.1.2, hk.2.2⟩

theorem reconnect_total {st : St} (hi : PbqpInv st) {e old : Edge} {a : Nat} {rest : List Edge}
    (h : st.edges.Perm (e :: old :: rest)) (he : e.Inc a) (ho : old.Inc a) (hm : mergeable st e a = true) {σ : Nat → Nat}
    (hσ : (pbqp st).Selection σ) : (pbqp (reconnect st e old a rest)).total σ = (pbqp st).total σ := by
  obtain ⟨oke, oko, okr, hne⟩ := reconnect_facts hi h he ho
  have ha : a ∈ st.live := by
    rcases he with he | he
    · rw [← he]; exact oke.src
    · rw [← he]; exact oke.tgt
  have hb : σ (e.other a) < (st.vec (e.other a)).length := hσ _ (other_mem oke)
  have hc : σ (old.other a) < (st.vec (old.other a)).length := hσ _ (other_mem oko)
  have hs := addEdgeCosts_total (σ := σ) (m := mergeMat st e old a) okr hne (other_mem oke) (other_mem oko) rfl rfl (build_full _ _ _) hb hc
  rw [total_eq, total_eq, edgeSum_perm h, edgeSum_cons, edgeSum_cons, entry_cost he, entry_cost ho]
  change nodeSum st.vec st.live σ + edgeSum (addEdgeCosts (e :: rest) (e.other a) (old.other a) (mergeMat st e old a)) σ = _
  rw [hs, edgeSum_cons, entry_cost he, mergeMat_get hb hc]
  -- infinite costs of one of the three nodes absorb everything
  have absorb : ∀ u ∈ st.live, vget (st.vec u) (σ u) = ⊤ → nodeSum st.vec st.live σ = ⊤ := fun u hu ht => by
    rw [nodeSum_erase hu, ht]; simp
  by_cases ta : vget (st.vec a) (σ a) = ⊤
  · rw [absorb a ha ta]; simp
  by_cases tb : vget (st.vec (e.other a)) (σ (e.other a)) = ⊤
  · rw [absorb _ (other_mem oke) tb]; simp
  by_cases tc : vget (st.vec (old.other a)) (σ (old.other a)) = ⊤
  · rw [absorb _ (other_mem oko) tc]; simp
  by_cases te : Edge.entry e a (σ a) (σ (e.other a)) = ⊤
  · rw [te]; simp
  rw [if_neg (by simp [tb, tc]), mapping_spec hm hb tb (hσ a ha) ta te]
  have : (if old.tgt = a then old.mat.get (σ (old.other a)) ((some (σ a)).getD 0) else old.mat.get ((some (σ a)).getD 0) (σ (old.other a))) =
      Edge.entry old a (σ a) (σ (old.other a)) := by
    unfold Edge.entry
    have := oko.lt
    unfold Edge.Inc at ho
    by_cases c : old.tgt = a
    · rw [if_pos c, if_neg (by omega)]; rfl
    · rw [if_neg c, if_pos (by omega)]; rfl
  rw [this]
  ring

/-! ## Selecting an alternative -/

theorem selectEdges_length (v k : Nat) (es : List Edge) (vec : Nat → Vec) (u : Nat) :
    (selectEdges v k vec es u).length = (vec u).length := by
  induction es generalizing vec with
  | nil => rfl
  | cons e es ih =>
    unfold selectEdges
    split
    · rw [ih, upd_length (by simp [vecAddRow, vbuild_length])]
    · split
      · rw [ih, upd_length (by simp [vecAddCol, vbuild_length])]
      · exact ih vec

theorem selectEdges_sum {live : List Nat} (hn : live.Nodup) {v k : Nat} {es : List Edge} {σ : Nat → Nat} (hk : σ v = k)
    (vec : Nat → Vec) (hes : ∀ e ∈ es, e.src ∈ live ∧ e.tgt ∈ live) (hσ : ∀ u ∈ live, σ u < (vec u).length) :
    nodeSum (selectEdges v k vec es) live σ = nodeSum vec live σ + edgeSum (es.filter fun e => e.Inc v) σ := by
  induction es generalizing vec with
  | nil => simp [selectEdges, edgeSum]
  | cons e es ih =>
    have hes' : ∀ f ∈ es, f.src ∈ live ∧ f.tgt ∈ live := fun f hf => hes f (List.mem_cons_of_mem _ hf)
    obtain ⟨hs, ht⟩ := hes e List.mem_cons_self
    unfold selectEdges
    by_cases h1 : e.src = v
    · rw [if_pos h1, ih _ hes' (fun u hu => by rw [upd_length (by simp [vecAddRow, vbuild_length])]; exact hσ u hu),
        nodeSum_upd hn ht, List.filter_cons_of_pos (by simp [Edge.Inc, h1]), edgeSum_cons, nodeSum_erase ht]
      unfold vecAddRow
      rw [vget_vbuild _ (hσ _ ht), h1, hk]
      ring
    · rw [if_neg h1]
      by_cases h2 : e.tgt = v
      · rw [if_pos h2, ih _ hes' (fun u hu => by rw [upd_length (by simp [vecAddCol, vbuild_length])]; exact hσ u hu),
          nodeSum_upd hn hs, List.filter_cons_of_pos (by simp [Edge.Inc, h2]), edgeSum_cons, nodeSum_erase hs]
        unfold vecAddCol
        rw [vget_vbuild _ (hσ _ hs), h2, hk]
        ring
      · rw [if_neg h2, ih _ hes' hσ, List.filter_cons_of_neg (by simp [Edge.Inc, h1, h2])]

/-- infinite costs stay infinite -/
theorem selectEdges_top (v k : Nat) (es : List Edge) (vec : Nat → Vec) {u i : Nat} (hi : i < (vec u).length) (h : vget (vec u) i = ⊤) :
    vget (selectEdges v k vec es u) i = ⊤ := by
  induction es generalizing vec with
  | nil => exact h
  | cons e es ih =>
    have key : ∀ w (x : Vec), x.length = (vec w).length → (u = w → vget x i = ⊤) →
        i < (upd vec w x u).length ∧ vget (upd vec w x u) i = ⊤ := fun w x hx hxt => by
      refine ⟨by rw [upd_length hx]; exact hi, ?_⟩
      by_cases hu : u = w
      · subst hu; rw [upd_self]; exact hxt rfl
      · rw [upd_ne _ _ hu]; exact h
    unfold selectEdges
    split
    · obtain ⟨a, b⟩ := key e.tgt (vecAddRow (vec e.tgt) e.mat k) (by simp [vecAddRow, vbuild_length]) (fun hh => by
        subst hh; unfold vecAddRow; rw [vget_vbuild _ hi, h]; simp)
      exact ih _ a b
    · split
      · obtain ⟨a, b⟩ := key e.src (vecAddCol (vec e.src) e.mat k) (by simp [vecAddCol, vbuild_length]) (fun hh => by
          subst hh; unfold vecAddCol; rw [vget_vbuild _ hi, h]; simp)
        exact ih _ a b
      · exact ih vec hi h

theorem select_length (st : St) (v k u : Nat) : ((select st v k).vec u).length = (st.vec u).length := by
  unfold select
  simp only
  rw [selectEdges_length, upd_length (by simp [vbuild_length])]

theorem select_inv {st : St} (hi : PbqpInv st) (v k : Nat) : PbqpInv (select st v k) := by
  refine ⟨hi.nodup, fun u hu => by rw [select_length]; exact hi.pos u hu, fun e he => ?_, ?_⟩
  · exact (hi.edge e (List.mem_of_mem_filter he)).congr (select_length st v k)
  · exact ((List.filter_sublist).map _).nodup hi.keys

theorem select_total {st : St} (hi : PbqpInv st) {v k : Nat} (hv : v ∈ st.live) {σ : Nat → Nat} (hσ : (pbqp st).Selection σ) :
    (pbqp (select st v k)).total σ = if σ v = k then (pbqp st).total σ else ⊤ := by
  have hvl := hσ v hv
  change σ v < (st.vec v).length at hvl
  rw [total_eq]
  unfold select
  simp only
  by_cases h : σ v = k
  · rw [if_pos h, selectEdges_sum hi.nodup h _ (fun e he => ⟨(hi.edge e he).src, (hi.edge e he).tgt⟩)
      (fun u hu => by rw [upd_length (by simp [vbuild_length])]; exact hσ u hu), nodeSum_upd hi.nodup hv, vget_vbuild _ hvl, if_pos h,
      total_eq, nodeSum_erase hv]
    have hsplit : edgeSum st.edges σ = edgeSum (st.edges.filter fun e => e.Inc v) σ + edgeSum (st.edges.filter fun e => ¬ e.Inc v) σ := by
      induction st.edges with
      | nil => simp [edgeSum]
      | cons e es ih =>
        rw [edgeSum_cons, ih]
        by_cases hh : e.Inc v
        · rw [List.filter_cons_of_pos (by simpa using hh), List.filter_cons_of_neg (by simpa using hh), edgeSum_cons]; ring
        · rw [List.filter_cons_of_neg (by simpa using hh), List.filter_cons_of_pos (by simpa using hh), edgeSum_cons]; ring
    rw [hsplit]
    ring
  · rw [if_neg h, nodeSum_erase hv, selectEdges_top]
    · simp
    · rw [upd_self, vbuild_length]; exact hvl
    · rw [upd_self, vget_vbuild _ hvl, if_neg h]

/-! ## The trivial solution -/

theorem r0_spec {st : St} (hi : PbqpInv st) (h : st.edges = []) :
    (pbqp st).Selection (r0 st) ∧ (pbqp st).total (r0 st) = determineSolution st ∧
    ∀ τ, (pbqp st).Selection τ → determineSolution st ≤ (pbqp st).total τ := by
  have hfold : ∀ (l : List Nat) (c : ℕ∞), l.foldl (fun acc v => acc + vget (st.vec v) (r0 st v)) c =
      c + (l.map fun v => vget (st.vec v) (r0 st v)).sum := by
    intro l
    induction l with
    | nil => intro c; simp
    | cons v l ih => intro c; simp only [List.foldl_cons, ih, List.map_cons, List.sum_cons]; ring
  have htot : (pbqp st).total (r0 st) = determineSolution st := by
    rw [total_eq, h, edgeSum_nil, add_zero]
    unfold determineSolution
    rw [hfold, zero_add]; rfl
  refine ⟨fun v hv => vecMinIndex_lt (hi.pos v hv), htot, fun τ hτ => ?_⟩
  rw [← htot, total_eq, total_eq, h, edgeSum_nil, edgeSum_nil, add_zero, add_zero]
  unfold nodeSum
  refine List.sum_le_sum fun v hv => ?_
  change vget (st.vec v) (vecMinIndex (st.vec v)) ≤ _
  rw [vget_vecMinIndex (hi.pos v hv)]
  exact vecMin_le (hτ v hv)

end Verif.Props
