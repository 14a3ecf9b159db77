import Verif.Lemmas.DomDfs
/-!
# The dominator tree: numbers of entries, depths
-/
namespace Verif.Model.Dom
open Verif.Spec.DomTheory Verif.Spec

variable {n : Nat} {E : Nat → Nat → Prop}

/-- the immediate dominators of the entries below `n` -/
structure Doms (n : Nat) (E : Nat → Nat → Prop) (dom : Nat → Option Nat) : Prop where
  root : dom 0 = none
  idom : ∀ v, 0 < v → v < n → ∃ d, dom v = some d ∧ d < v ∧ Idom E d v

theorem ra_of_dom {a d i : Nat} (h : RA E a i) (hd : ¬ RA E d i) : RA E a d := by
  induction h with
  | @root hne =>
    by_cases h0 : d = 0
    · subst h0; exact .root hne
    · exact absurd (.root (fun h => h0 h.symm)) hd
  | @step u v hu he hv ih =>
    by_cases hr : RA E d u
    · by_cases hvd : v = d
      · subst hvd; exact .step hu he hv
      · exact absurd (.step hr he hvd) hd
    · exact ih hr

theorem idoms_doms {p : Nat → Nat} (T : DfsTree n E p) {preds : Nat → List Nat} (hp : PredsOk n E preds) : Doms n E (idoms n p preds) := by
  obtain ⟨h1, h2⟩ := idoms_spec T hp
  refine ⟨h1, fun v h0 hv => ?_⟩
  obtain ⟨d, hd, hid⟩ := h2 v h0 hv
  have ha : Anc p d v := Classical.byContradiction fun h => hid.2.1 (ra_of_not_anc T hv h)
  have := ha.le T hv
  exact ⟨d, hd, by have := hid.1; omega, hid⟩

/-- the parent in the dominator tree -/
def par (dom : Nat → Option Nat) (i : Nat) : Nat := (dom i).getD 0

theorem Doms.par {dom : Nat → Option Nat} (h : Doms n E dom) {i : Nat} (h0 : 0 < i) (hi : i < n) :
    dom i = some (par dom i) ∧ Dom.par dom i < i ∧ Idom E (Dom.par dom i) i := by
  obtain ⟨d, h1, h2, h3⟩ := h.idom i h0 hi
  have : Dom.par dom i = d := by simp [Dom.par, h1]
  rw [this]
  exact ⟨h1, h2, h3⟩

/-- ancestors in the dominator tree are the dominators -/
theorem Doms.anc {dom : Nat → Option Nat} (h : Doms n E dom) {a i : Nat} (hi : i < n) : ¬ RA E a i ↔ Anc (Dom.par dom) a i := by
  induction i using Nat.strongRecOn with
  | ind i ih =>
    by_cases h0 : i = 0
    · subst h0
      constructor
      · intro hr
        by_cases ha : a = 0
        · subst ha; exact .refl
        · exact absurd (.root (fun h => ha h.symm)) hr
      · intro ha hr
        cases ha with
        | refl => cases hr with
          | root h => exact h rfl
          | step _ _ h => exact h rfl
        | step h _ => omega
    · obtain ⟨-, h1, h2⟩ := h.par (i := i) (by omega) hi
      have ih := ih _ h1 (by omega)
      constructor
      · intro hr
        by_cases ha : a = i
        · subst ha; exact .refl
        · exact .step (by omega) (ih.1 (h2.2.2 a ha hr))
      · intro ha hr
        cases ha with
        | refl => cases hr with
          | root h => exact h rfl
          | step _ _ h => exact h rfl
        | step _ ha => exact ih.2 ha (ra_of_dom hr h2.2.1)

/-! ## Trees -/

/-- parents are smaller -/
def TreeOn (n : Nat) (q : Nat → Nat) : Prop := ∀ i, 0 < i → i < n → q i < i

theorem TreeOn.le {q : Nat → Nat} (h : TreeOn n q) {a b : Nat} (hb : b < n) (ha : Anc q a b) : a ≤ b := by
  induction ha with
  | refl => omega
  | @step b h0 _ ih => have := h b h0 hb; have := ih (by omega); omega

theorem TreeOn.zero {q : Nat → Nat} (h : TreeOn n q) {b : Nat} (hb : b < n) : Anc q 0 b := by
  induction b using Nat.strongRecOn with
  | ind b ih =>
    by_cases h0 : b = 0
    · subst h0; exact .refl
    · exact .step (by omega) (ih _ (h b (by omega) hb) (by have := h b (by omega) hb; omega))

theorem TreeOn.chain {q : Nat → Nat} (h : TreeOn n q) {a b c : Nat} (hc : c < n) (h1 : Anc q a c) (h2 : Anc q b c) (hab : a ≤ b) : Anc q a b := by
  induction h2 with
  | refl => exact h1
  | @step c h0 h2 ih =>
    have := h c h0 hc
    cases h1 with
    | refl => have := h.le (by omega) h2; omega
    | step _ h1 => exact ih (by omega) h1

/-- the entries of the subtree of `b` -/
def Sub (n : Nat) (q : Nat → Nat) (b x : Nat) : Prop := x < n ∧ Anc q b x

/-- an entry of a subtree is the root or in the subtree of a child -/
theorem sub_cases {q : Nat → Nat} (h : TreeOn n q) {b x : Nat} (hs : Sub n q b x) : x = b ∨ ∃ c, 0 < c ∧ c < n ∧ q c = b ∧ Sub n q c x := by
  obtain ⟨hx, ha⟩ := hs
  by_cases hne : b = x
  · exact Or.inl hne.symm
  · obtain ⟨c, c0, c1, c2⟩ := child_of_anc ha hne
    exact Or.inr ⟨c, c0, by have := h.le hx c2; omega, c1, hx, c2⟩

/-- what a walk over the subtree of `b` did -/
structure Walked (n : Nat) (q : Nat → Nat) (b : Nat) (t t' : Walk) : Prop where
  num : t.num < t'.num
  pre : ∀ x, ¬ Sub n q b x → t'.pre x = t.pre x
  max : ∀ x, ¬ Sub n q b x → t'.max x = t.max x
  range : ∀ x, Sub n q b x → t.num ≤ t'.pre x ∧ t'.max x < t'.num
  maxb : t'.max b = t'.num - 1
  cnt : ∃ S : List Nat, S.Nodup ∧ (∀ x ∈ S, Sub n q b x) ∧ t'.num = t.num + S.length
  iff : ∀ x y, Sub n q b x → Sub n q b y → (Anc q x y ↔ t'.pre x ≤ t'.pre y ∧ t'.pre y ≤ t'.max x)

/-- what a walk over the subtrees of the children `L` did -/
structure Walking (n : Nat) (q : Nat → Nat) (L : List Nat) (t t' : Walk) : Prop where
  num : t.num ≤ t'.num
  pre : ∀ x, (∀ c ∈ L, ¬ Sub n q c x) → t'.pre x = t.pre x
  max : ∀ x, (∀ c ∈ L, ¬ Sub n q c x) → t'.max x = t.max x
  range : ∀ c ∈ L, ∀ x, Sub n q c x → t.num ≤ t'.pre x ∧ t'.max x < t'.num
  cnt : ∃ S : List Nat, S.Nodup ∧ (∀ x ∈ S, ∃ c ∈ L, Sub n q c x) ∧ t'.num = t.num + S.length
  nil : L = [] → t'.num = t.num
  maxL : L ≠ [] → t.num < t'.num ∧ L.foldl (fun m c => Nat.max m (t'.max c)) 0 = t'.num - 1
  iff : ∀ c ∈ L, ∀ c' ∈ L, ∀ x y, Sub n q c x → Sub n q c' y → (Anc q x y ↔ t'.pre x ≤ t'.pre y ∧ t'.pre y ≤ t'.max x)

theorem foldl_max_le {f : Nat → Nat} {k : Nat} (L : List Nat) : ∀ m, m ≤ k → (∀ c ∈ L, f c ≤ k) → L.foldl (fun m c => Nat.max m (f c)) m ≤ k := by
  induction L with
  | nil => intro m h _; exact h
  | cons c L ih =>
    intro m h hL
    rw [List.foldl_cons]
    refine ih _ (Nat.max_le.2 ⟨h, hL c (by simp)⟩) fun x hx => hL x (by simp [hx])

theorem foldl_congr {f g : Nat → Nat} (L : List Nat) : ∀ m, (∀ c ∈ L, f c = g c) →
    L.foldl (fun m c => Nat.max m (f c)) m = L.foldl (fun m c => Nat.max m (g c)) m := by
  induction L with
  | nil => intro m _; rfl
  | cons c L ih =>
    intro m hL
    rw [List.foldl_cons, List.foldl_cons, hL c (by simp)]
    exact ih _ fun x hx => hL x (by simp [hx])

theorem walking_foldl {q : Nat → Nat} (hT : TreeOn n q) {b : Nat} {f : Nat → Walk → Walk} {t : Walk}
    (hf : ∀ c t, 0 < c → c < n → q c = b → Walked n q c t (f c t)) (L' : List Nat) :
    ∀ (L : List Nat) (t' : Walk), (L ++ L').Nodup → (∀ c ∈ L ++ L', 0 < c ∧ c < n ∧ q c = b) → Walking n q L t t' →
      Walking n q (L ++ L') t (L'.foldl (fun t c => f c t) t') := by
  induction L' with
  | nil => intro L t' _ _ h; simpa using h
  | cons c L' ih =>
    intro L t' hn hL h
    rw [List.foldl_cons]
    obtain ⟨c0, cn, cb⟩ := hL c (by simp)
    have hw := hf c t' c0 cn cb
    have hcL : ∀ d ∈ L, d ≠ c := by
      intro d hd
      exact (List.nodup_append.1 hn).2.2 d hd c (by simp)
    -- subtrees of different children are disjoint
    have hdis : ∀ d ∈ L, ∀ x, Sub n q d x → ¬ Sub n q c x := by
      intro d hd x h1 h2
      obtain ⟨d0, dn, db⟩ := hL d (by simp [hd])
      have hne := hcL d hd
      have : ∀ a b', 0 < b' → b' < n → q a = q b' → a < n → 0 < a → Anc q a b' → a = b' := by
        intro a b' h0 hb' hq ha h0a hanc
        cases hanc with
        | refl => rfl
        | step _ hanc =>
          have := hT.le (by have := hT b' h0 hb'; omega) hanc
          have := hT a h0a ha
          omega
      rcases Nat.le_total d c with hle | hle
      · exact hne (this d c c0 cn (by omega) dn d0 (hT.chain h1.1 h1.2 h2.2 hle))
      · exact hne (this c d d0 dn (by omega) cn c0 (hT.chain h1.1 h2.2 h1.2 hle)).symm
    suffices hh : Walking n q (L ++ [c]) t (f c t') by
      have := ih (L ++ [c]) (f c t') (by simpa using hn) (by simpa using hL) hh
      rwa [List.append_assoc, List.singleton_append] at this
    have hsub : ∀ d ∈ L ++ [c], d ∈ L ∨ d = c := by simp
    have hcc : Sub n q c c := ⟨cn, .refl⟩
    have hold : ∀ d ∈ L, ∀ x, Sub n q d x → (f c t').pre x = t'.pre x ∧ (f c t').max x = t'.max x :=
      fun d hd x hx => ⟨hw.pre x (hdis d hd x hx), hw.max x (hdis d hd x hx)⟩
    have hnum := hw.num
    have hnum' := h.num
    have hle : ∀ d ∈ L, ∀ x, Sub n q d x → t'.pre x ≤ t'.max x := fun d hd x hx => ((h.iff d hd d hd x x hx hx).1 .refl).2
    refine ⟨by omega, ?_, ?_, ?_, ?_, by simp, ?_, ?_⟩
    · intro x hx
      rw [hw.pre x (hx c (by simp)), h.pre x fun d hd => hx d (by simp [hd])]
    · intro x hx
      rw [hw.max x (hx c (by simp)), h.max x fun d hd => hx d (by simp [hd])]
    · intro d hd x hx
      rcases hsub d hd with hd | rfl
      · obtain ⟨e1, e2⟩ := hold d hd x hx
        have := h.range d hd x hx
        rw [e1, e2]; omega
      · have := hw.range x hx; omega
    · obtain ⟨S, s1, s2, s3⟩ := h.cnt
      obtain ⟨S', s1', s2', s3'⟩ := hw.cnt
      refine ⟨S ++ S', List.nodup_append.2 ⟨s1, s1', ?_⟩, ?_, by rw [List.length_append]; omega⟩
      · rintro a ha a' ha' rfl
        obtain ⟨d, hd, hx⟩ := s2 a ha
        exact hdis d hd a hx (s2' a ha')
      · intro x hx
        rcases List.mem_append.1 hx with hx | hx
        · obtain ⟨d, hd, hx⟩ := s2 x hx
          exact ⟨d, by simp [hd], hx⟩
        · exact ⟨c, by simp, s2' x hx⟩
    · intro _
      refine ⟨by omega, ?_⟩
      rw [List.foldl_append, List.foldl_cons, List.foldl_nil, hw.maxb]
      have : L.foldl (fun m c_1 => Nat.max m ((f c t').max c_1)) 0 ≤ (f c t').num - 1 := by
        refine foldl_max_le L 0 (by omega) fun d hd => ?_
        have hds : Sub n q d d := ⟨(hL d (by simp [hd])).2.1, .refl⟩
        rw [(hold d hd d hds).2]
        have := (h.range d hd d hds).2
        omega
      exact Nat.max_eq_right this
    · intro d hd d' hd' x y hx hy
      rcases hsub d hd with hdL | rfl
      · obtain ⟨e1, e2⟩ := hold d hdL x hx
        rcases hsub d' hd' with hdL' | rfl
        · obtain ⟨e3, -⟩ := hold d' hdL' y hy
          rw [e1, e2, e3]
          exact h.iff d hdL d' hdL' x y hx hy
        · have h1 := h.range d hdL x hx
          have h2 := hw.range y hy
          rw [e1, e2]
          constructor
          · intro ha
            exact absurd hy (hdis d hdL y ⟨hy.1, hx.2.trans ha⟩)
          · intro _; omega
      · rcases hsub d' hd' with hdL' | rfl
        · obtain ⟨e3, -⟩ := hold d' hdL' y hy
          have h1 := h.range d' hdL' y hy
          have h2 := hw.range x hx
          have h3 := hle d' hdL' y hy
          rw [e3]
          constructor
          · intro ha
            exact absurd ⟨hy.1, hx.2.trans ha⟩ (hdis d' hdL' y hy)
          · intro _; omega
        · exact hw.iff x y hx hy

theorem walk_spec {q : Nat → Nat} (hT : TreeOn n q) {kids : Nat → List Nat} (hnd : ∀ b, (kids b).Nodup)
    (hk : ∀ b c, c ∈ kids b ↔ 0 < c ∧ c < n ∧ q c = b) : ∀ fuel b t, b < n → n ≤ fuel + b → Walked n q b t (walk kids fuel b t) := by
  intro fuel
  induction fuel with
  | zero => intro b t hb hf; omega
  | succ fuel ih =>
    intro b t hb hf
    simp only [walk]
    generalize hs1 : ({ t with pre := set t.pre b t.num, num := t.num + 1 } : Walk) = t1
    have e1 : t1.pre = set t.pre b t.num := by rw [← hs1]
    have e2 : t1.max = t.max := by rw [← hs1]
    have e3 : t1.num = t.num + 1 := by rw [← hs1]
    have hw := walking_foldl hT (b := b) (f := fun c t => walk kids fuel c t) (t := t1)
      (fun c t c0 cn cb => ih c t cn (by have := hT c c0 cn; omega)) (kids b) [] t1 (by simpa using hnd b)
      (fun c hc => (hk b c).1 (by simpa using hc))
      ⟨Nat.le_refl _, fun _ _ => rfl, fun _ _ => rfl, by simp, ⟨[], by simp, by simp, rfl⟩, fun _ => rfl, by simp, by simp⟩
    rw [List.nil_append] at hw
    generalize (kids b).foldl (fun t c => walk kids fuel c t) t1 = t2 at hw ⊢
    have hnum := hw.num
    -- the children's subtrees do not contain `b`
    have hb' : ∀ c ∈ kids b, ¬ Sub n q c b := by
      intro c hc hs
      obtain ⟨c0, cn, cb⟩ := (hk b c).1 hc
      have := hT.le hb hs.2
      have := hT c c0 cn
      omega
    have hpb : t2.pre b = t.num := by rw [hw.pre b hb', e1, set_same]
    have hbb : Sub n q b b := ⟨hb, .refl⟩
    have hkid : ∀ c ∈ kids b, ∀ x, Sub n q c x → Sub n q b x := by
      intro c hc x hx
      obtain ⟨c0, cn, cb⟩ := (hk b c).1 hc
      exact ⟨hx.1, (by rw [← cb]; exact anc_par c0 : Anc q b c).trans hx.2⟩
    have hcases : ∀ x, Sub n q b x → x = b ∨ ∃ c ∈ kids b, Sub n q c x := by
      intro x hx
      rcases sub_cases hT hx with h | ⟨c, c0, cn, cb, hc⟩
      · exact Or.inl h
      · exact Or.inr ⟨c, (hk b c).2 ⟨c0, cn, cb⟩, hc⟩
    have hmax : (if kids b = [] then t2.pre b else (kids b).foldl (fun m c => Nat.max m (t2.max c)) 0) = t2.num - 1 := by
      split
      · next h =>
        have := hw.nil h
        omega
      · next h => exact (hw.maxL h).2
    rw [hmax]
    have hmb : ∀ x, x ≠ b → set t2.max b (t2.num - 1) x = t2.max x := fun x hx => set_other _ _ hx
    have hne : ∀ c ∈ kids b, ∀ x, Sub n q c x → x ≠ b := fun c hc x hx => by rintro rfl; exact hb' c hc hx
    have hrange : ∀ x, Sub n q b x → t.num ≤ t2.pre x ∧ t2.pre x < t2.num := by
      intro x hx
      rcases hcases x hx with rfl | ⟨c, hc, hx⟩
      · omega
      · have h1 := hw.range c hc x hx
        have h2 := ((hw.iff c hc c hc x x hx hx).1 .refl).2
        omega
    obtain ⟨S, s1, s2, s3⟩ := hw.cnt
    refine ⟨by show t.num < t2.num; omega, ?_, ?_, ?_, set_same _ _ _, ⟨b :: S, List.nodup_cons.2 ⟨?_, s1⟩, ?_, ?_⟩, ?_⟩
    · intro x hx
      show t2.pre x = t.pre x
      rw [hw.pre x fun c hc hs => hx (hkid c hc x hs), e1, set_other _ _ (by rintro rfl; exact hx hbb)]
    · intro x hx
      show set t2.max b _ x = t.max x
      rw [hmb x (by rintro rfl; exact hx hbb), hw.max x fun c hc hs => hx (hkid c hc x hs), e2]
    · intro x hx
      show t.num ≤ t2.pre x ∧ set t2.max b _ x < t2.num
      refine ⟨(hrange x hx).1, ?_⟩
      rcases hcases x hx with rfl | ⟨c, hc, hx⟩
      · rw [set_same]; omega
      · rw [hmb x (hne c hc x hx)]; exact (hw.range c hc x hx).2
    · intro hbS
      obtain ⟨c, hc, hx⟩ := s2 b hbS
      exact hb' c hc hx
    · intro x hx
      rcases List.mem_cons.1 hx with rfl | hx
      · exact hbb
      · obtain ⟨c, hc, hx⟩ := s2 x hx
        exact hkid c hc x hx
    · show t2.num = t.num + (S.length + 1)
      omega
    · intro x y hx hy
      show _ ↔ t2.pre x ≤ t2.pre y ∧ t2.pre y ≤ set t2.max b _ x
      rcases hcases x hx with rfl | ⟨c, hc, hx'⟩
      · rw [set_same, hpb]
        have := hrange y hy
        exact ⟨fun _ => by omega, fun _ => hy.2⟩
      · rw [hmb x (hne c hc x hx')]
        rcases hcases y hy with rfl | ⟨c', hc', hy'⟩
        · constructor
          · intro ha
            exact absurd ⟨hb, hx'.2.trans ha⟩ (hb' c hc)
          · rw [hpb]
            have := (hw.range c hc x hx').1
            omega
        · exact hw.iff c hc c' hc' x y hx' hy'

theorem mem_children {dom : Nat → Option Nat} {b c : Nat} : c ∈ children n dom b ↔ 0 < c ∧ c < n ∧ dom c = some b := by
  unfold children
  rw [List.mem_reverse, List.mem_filter, List.mem_map, beq_iff_eq]
  constructor
  · rintro ⟨⟨a, ha, rfl⟩, h⟩
    have := List.mem_range.1 ha
    exact ⟨by omega, by omega, h⟩
  · rintro ⟨h1, h2, h3⟩
    exact ⟨⟨c - 1, List.mem_range.2 (by omega), by omega⟩, h3⟩

theorem nodup_children {dom : Nat → Option Nat} {b : Nat} : (children n dom b).Nodup := by
  unfold children
  refine List.nodup_iff_pairwise_ne.2 (List.pairwise_reverse.2 (List.Pairwise.imp (fun h => Ne.symm h) (List.nodup_iff_pairwise_ne.1 ?_)))
  refine List.nodup_iff_pairwise_ne.2 (List.Pairwise.filter _ ?_)
  rw [List.pairwise_map]
  exact (List.nodup_iff_pairwise_ne.1 List.nodup_range).imp fun h => by omega

/-- the numbers of the tree decide dominance, and they are below the number of entries -/
theorem treeNums_spec {dom : Nat → Option Nat} (h : Doms n E dom) (hn : 0 < n) {i j : Nat} (hi : i < n) (hj : j < n) :
    ((treeNums n dom).pre i ≤ (treeNums n dom).pre j ∧ (treeNums n dom).pre j ≤ (treeNums n dom).max i ↔ ¬ RA E i j) ∧
    (treeNums n dom).pre i ≤ (treeNums n dom).max i ∧ (treeNums n dom).max i < n := by
  have hT : TreeOn n (par dom) := fun i h0 hi => (h.par h0 hi).2.1
  have hw := walk_spec hT (kids := children n dom) (fun _ => nodup_children) (fun b c => by
    rw [mem_children]
    constructor
    · rintro ⟨h1, h2, h3⟩; exact ⟨h1, h2, by simp [par, h3]⟩
    · rintro ⟨h1, h2, h3⟩; exact ⟨h1, h2, by rw [← h3]; exact (h.par h1 h2).1⟩) n 0 ⟨fun _ => 0, fun _ => 0, 0⟩ hn (by omega)
  have hsi : Sub n (par dom) 0 i := ⟨hi, hT.zero hi⟩
  have hsj : Sub n (par dom) 0 j := ⟨hj, hT.zero hj⟩
  obtain ⟨S, s1, s2, s3⟩ := hw.cnt
  have hl := length_le_of_nodup s1 fun x hx => (s2 x hx).1
  have h1 := hw.range i hsi
  rw [s3] at h1
  rw [h.anc hj]
  refine ⟨(hw.iff i j hsi hsj).symm, ((hw.iff i i hsi hsi).1 .refl).2, ?_⟩
  simp only [Nat.zero_add] at h1
  exact Nat.lt_of_lt_of_le h1.2 hl

theorem inSubtree_iff {a b c : Nat} (ha : a ≤ c) (hb : b < 2 ^ 32) (hc : c < 2 ^ 32) {x : BitVec 32} :
    inSubtree (BitVec.ofNat 32 a, BitVec.ofNat 32 c) (BitVec.ofNat 32 b, x) = true ↔ a ≤ b ∧ b ≤ c := by
  unfold inSubtree
  rw [decide_eq_true_iff, BitVec.le_def, BitVec.toNat_sub, BitVec.toNat_sub, BitVec.toNat_ofNat, BitVec.toNat_ofNat, BitVec.toNat_ofNat]
  omega

/-! ## Depths -/

theorem depths_aux {dom : Nat → Option Nat} (h : Doms n E dom) (k : Nat) (hk : k < n) :
    let d := ((List.range k).map (· + 1)).foldl
      (fun (d : Nat → Int) w => match dom w with
        | none => d
        | some p => set d w (if d p > 0 then d p + 1 else d p)) (set (fun _ => -1) 0 1)
    ∀ i, i ≤ k → ∃ S : List Nat, S.Nodup ∧ (∀ a, a ∈ S ↔ Anc (par dom) a i) ∧ d i = S.length := by
  induction k with
  | zero =>
    intro d i hi
    obtain rfl : i = 0 := by omega
    refine ⟨[0], by simp, fun a => ?_, by simp [d, set]⟩
    rw [List.mem_singleton]
    constructor
    · rintro rfl; exact .refl
    · intro ha
      cases ha with
      | refl => rfl
      | step h _ => omega
  | succ k ih =>
    have ih := ih (by omega)
    simp only at ih ⊢
    rw [List.range_succ, List.map_append, List.foldl_append]
    simp only [List.map_cons, List.map_nil, List.foldl_cons, List.foldl_nil]
    generalize ((List.range k).map (· + 1)).foldl _ _ = d at *
    obtain ⟨h1, h2, -⟩ := h.par (i := k + 1) (by omega) hk
    rw [h1]
    simp only
    intro i hi
    by_cases hik : i ≤ k
    · rw [set_other _ _ (by omega)]; exact ih i hik
    · obtain rfl : i = k + 1 := by omega
      rw [set_same]
      obtain ⟨S, s1, s2, s3⟩ := ih (par dom (k + 1)) (by omega)
      have hT : TreeOn n (par dom) := fun i h0 hi => (h.par h0 hi).2.1
      refine ⟨(k + 1) :: S, List.nodup_cons.2 ⟨fun hm => ?_, s1⟩, fun a => ?_, ?_⟩
      · have := hT.le (by omega) ((s2 _).1 hm)
        omega
      · rw [List.mem_cons, s2]
        constructor
        · rintro (rfl | ha)
          · exact .refl
          · exact .step (by omega) ha
        · intro ha
          cases ha with
          | refl => exact Or.inl rfl
          | step _ ha => exact Or.inr ha
      · rw [s3]
        have : 0 < S.length := List.length_pos_of_mem ((s2 (par dom (k + 1))).2 .refl)
        rw [if_pos (by omega), List.length_cons]
        omega

/-- the depth is the number of dominators -/
theorem depths_spec {dom : Nat → Option Nat} (h : Doms n E dom) {i : Nat} (hi : i < n) :
    ∃ S : List Nat, S.Nodup ∧ (∀ a, a ∈ S ↔ ¬ RA E a i) ∧ depths n dom i = S.length := by
  obtain ⟨S, s1, s2, s3⟩ := depths_aux h (n - 1) (by omega) i (by omega)
  exact ⟨S, s1, fun a => by rw [s2, h.anc hi], s3⟩

end Verif.Model.Dom
