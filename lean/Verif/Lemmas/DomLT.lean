import Verif.Lemmas.DomTheory
import Verif.Model.Dom
/-!
# The algorithm of Lengauer and Tarjan computes immediate dominators
-/
namespace Verif.Model.Dom
open Verif.Spec.DomTheory

variable {n : Nat} {E : Nat → Nat → Prop} {p : Nat → Nat}

theorem set_same {α : Type} (f : Nat → α) (i : Nat) (x : α) : set f i x i = x := by simp [set]
theorem set_other {α : Type} (f : Nat → α) {i j : Nat} (x : α) (h : j ≠ i) : set f i x j = f j := by simp [set, h]

/-- `x` is on the path of the tree from `a` (exclusive) to `v` (inclusive) -/
def Seg (p : Nat → Nat) (a v x : Nat) : Prop := Anc p a x ∧ a ≠ x ∧ Anc p x v

/-! ## The forest -/

/-- the forest when the entries above `k` are linked -/
structure Linked (n : Nat) (p : Nat → Nat) (k : Nat) (t : Tdi) : Prop where
  root : ∀ v, v ≤ k → t.ancestor v = none
  labelRoot : ∀ v, v ≤ k → t.label v = v
  link : ∀ v, k < v → v < n → ∃ a, t.ancestor v = some a ∧ Anc p a v ∧ a ≠ v ∧ (∀ x, Seg p a v x → k < x) ∧
    Seg p a v (t.label v) ∧ ∀ x, Seg p a v x → t.semi (t.label v) ≤ t.semi x

/-- only the forest is changed -/
structure SameFields (t t' : Tdi) : Prop where
  semi : t'.semi = t.semi
  dom : t'.dom = t.dom
  bucket : t'.bucket = t.bucket

theorem compress_spec (T : DfsTree n E p) {k : Nat} : ∀ fuel v t, v < fuel → v < n → Linked n p k t →
    Linked n p k (compress fuel v t) ∧ SameFields t (compress fuel v t) ∧
    (∀ x, v < x → (compress fuel v t).ancestor x = t.ancestor x ∧ (compress fuel v t).label x = t.label x) ∧
    (k < v → ∃ a, (compress fuel v t).ancestor v = some a ∧ a ≤ k) := by
  intro fuel
  induction fuel with
  | zero => intro v t h; omega
  | succ fuel ih =>
    intro v t hv hn hL
    simp only [compress]
    by_cases hk : k < v
    · obtain ⟨a, ha, h1, h2, h3, h4, h5⟩ := hL.link v hk hn
      have hav := h1.le T hn
      rw [ha]
      simp only
      by_cases hak : a ≤ k
      · rw [hL.root a hak]
        exact ⟨hL, ⟨rfl, rfl, rfl⟩, fun _ _ => ⟨rfl, rfl⟩, fun _ => ⟨a, ha, hak⟩⟩
      · obtain ⟨b, hb, -⟩ := hL.link a (by omega) (by omega)
        rw [hb]
        simp only
        obtain ⟨i1, i2, i3, i4⟩ := ih a t (by omega) (by omega) hL
        obtain ⟨r, hr, hrk⟩ := i4 (by omega)
        obtain ⟨hva, hvl⟩ := i3 v (by omega)
        generalize compress fuel a t = t1 at *
        obtain ⟨r', hr', c1, c2, c3, c4, c5⟩ := i1.link a (by omega) (by omega)
        rw [hr] at hr'
        cases hr'
        have hra := c1.le T (by omega)
        -- the new label
        generalize hl : (if t1.semi (t1.label a) < t1.semi (t1.label v) then t1.label a else t1.label v) = lab
        have hst : (if t1.semi (t1.label a) < t1.semi (t1.label v) then { t1 with label := set t1.label v (t1.label a) } else t1) =
            { t1 with label := set t1.label v lab } := by
          rw [← hl]
          split
          · rfl
          · have : set t1.label v (t1.label v) = t1.label := by
              funext x; unfold set; split
              · next h => rw [h]
              · rfl
            rw [this]
        rw [hst]
        simp only [hr]
        have hseg : ∀ x, Seg p r v x → Seg p r a x ∨ Seg p a v x := by
          rintro x ⟨s1, s2, s3⟩
          have := s3.le T hn
          by_cases hxa : x ≤ a
          · exact Or.inl ⟨s1, s2, s3.chain T h1 hn hxa⟩
          · exact Or.inr ⟨h1.chain T s3 hn (by omega), by omega, s3⟩
        have hseg1 : ∀ x, Seg p r a x → Seg p r v x := fun x ⟨s1, s2, s3⟩ => ⟨s1, s2, s3.trans h1⟩
        have hseg2 : ∀ x, Seg p a v x → Seg p r v x := fun x ⟨s1, s2, s3⟩ => ⟨c1.trans s1, by
          have := s1.le T (by have := s3.le T hn; omega); omega, s3⟩
        rw [hvl] at hl
        rw [i2.semi] at hl c5
        have hlab : Seg p r v lab ∧ ∀ x, Seg p r v x → t.semi lab ≤ t.semi x := by
          rw [← hl]
          split
          · next hlt =>
            refine ⟨hseg1 _ c4, fun x hx => ?_⟩
            rcases hseg x hx with h | h
            · exact c5 x h
            · have := h5 x h; omega
          · next hge =>
            refine ⟨hseg2 _ h4, fun x hx => ?_⟩
            rcases hseg x hx with h | h
            · have := c5 x h; omega
            · exact h5 x h
        refine ⟨⟨?_, ?_, ?_⟩, ⟨i2.semi, i2.dom, i2.bucket⟩, ?_, ?_⟩
        · intro x hx
          show set t1.ancestor v (some r) x = none
          rw [set_other _ _ (by omega)]
          exact i1.root x hx
        · intro x hx
          show set t1.label v lab x = x
          rw [set_other _ _ (by omega)]
          exact i1.labelRoot x hx
        · intro x hx hxn
          show ∃ b, set t1.ancestor v (some r) x = some b ∧ Anc p b x ∧ b ≠ x ∧ (∀ y, Seg p b x y → k < y) ∧ Seg p b x (set t1.label v lab x) ∧
            ∀ y, Seg p b x y → t1.semi (set t1.label v lab x) ≤ t1.semi y
          by_cases hxv : x = v
          · subst hxv
            rw [set_same, set_same, i2.semi]
            refine ⟨r, rfl, c1.trans h1, by omega, ?_, hlab.1, hlab.2⟩
            intro y hy
            rcases hseg y hy with h | h
            · exact c3 y h
            · exact h3 y h
          · rw [set_other _ _ hxv, set_other _ _ hxv]
            exact i1.link x hx hxn
        · intro x hx
          show set t1.ancestor v (some r) x = _ ∧ set t1.label v lab x = _
          rw [set_other _ _ (by omega), set_other _ _ (by omega)]
          exact i3 x (by omega)
        · intro _
          exact ⟨r, by show set t1.ancestor v (some r) v = _; rw [set_same], hrk⟩
    · rw [hL.root v (by omega)]
      exact ⟨hL, ⟨rfl, rfl, rfl⟩, fun _ _ => ⟨rfl, rfl⟩, fun h => absurd h hk⟩

theorem eval_spec (T : DfsTree n E p) {k v : Nat} {t : Tdi} (hv : v < n) (hL : Linked n p k t) :
    Linked n p k (eval v t).2 ∧ SameFields t (eval v t).2 ∧ (v ≤ k → (eval v t).1 = v) ∧
    (k < v → k < (eval v t).1 ∧ Anc p (eval v t).1 v ∧ ∀ x, k < x → Anc p x v → t.semi (eval v t).1 ≤ t.semi x) := by
  unfold eval
  by_cases hk : k < v
  · obtain ⟨a, ha, -⟩ := hL.link v hk hv
    rw [ha]
    simp only
    obtain ⟨i1, i2, -, i4⟩ := compress_spec T (v + 1) v t (by omega) hv hL
    generalize compress (v + 1) v t = t1 at *
    obtain ⟨r, hr, hrk⟩ := i4 hk
    obtain ⟨r', hr', c1, c2, c3, c4, c5⟩ := i1.link v hk hv
    rw [hr] at hr'
    cases hr'
    rw [i2.semi] at c5
    refine ⟨i1, i2, fun h => absurd hk (by omega), fun _ => ⟨c3 _ c4, c4.2.2, fun x hx hxv => c5 x ⟨?_, by omega, hxv⟩⟩⟩
    exact c1.chain T hxv hv (by omega)
  · rw [hL.root v (by omega)]
    exact ⟨hL, ⟨rfl, rfl, rfl⟩, fun _ => rfl, fun h => absurd h hk⟩

/-! ## Step 2 -/

/-- the lists of predecessors, apart from loops -/
structure PredsOk (n : Nat) (E : Nat → Nat → Prop) (preds : Nat → List Nat) : Prop where
  sound : ∀ w v, w < n → v ∈ preds w → v < n ∧ (E v w ∨ v = w)
  complete : ∀ w v, E v w → v ≠ w → v ∈ preds w

/-- changing the semidominator of an entry that is not linked -/
theorem Linked.setSemi {k w x : Nat} {t : Tdi} (hL : Linked n p k t) (hw : w ≤ k) : Linked n p k { t with semi := set t.semi w x } := by
  refine ⟨hL.root, hL.labelRoot, ?_⟩
  intro v hv hn
  obtain ⟨a, h1, h2, h3, h4, h5, h6⟩ := hL.link v hv hn
  refine ⟨a, h1, h2, h3, h4, h5, ?_⟩
  intro y hy
  show set t.semi w x _ ≤ set t.semi w x _
  have h7 := h4 _ h5
  have h8 := h4 _ hy
  show set t.semi w x (t.label v) ≤ set t.semi w x y
  rw [set_other _ _ (by omega), set_other _ _ (by omega)]
  exact h6 y hy

/-- what the predecessors in `L` contributed -/
structure Step2 (n : Nat) (E : Nat → Nat → Prop) (p : Nat → Nat) (w : Nat) (L : List Nat) (t0 t : Tdi) : Prop where
  linked : Linked n p w t
  dom : t.dom = t0.dom
  bucket : t.bucket = t0.bucket
  other : ∀ v, v ≠ w → t.semi v = t0.semi v
  hi : t.semi w = w ∨ Hi E w (t.semi w)
  low : ∀ v ∈ L, v < w → t.semi w ≤ v
  high : ∀ v ∈ L, w < v → ∀ x, w < x → Anc p x v → t.semi w ≤ t.semi x

theorem step2_spec (T : DfsTree n E p) {w : Nat} {L : List Nat} {t0 t : Tdi} {u : Nat} (hu : u < n) (he : E u w ∨ u = w)
    (hsl : ∀ v, v < w → t0.semi v = v) (hsh : ∀ v, w < v → v < n → IsSemi E (t0.semi v) v) (h : Step2 n E p w L t0 t) :
    Step2 n E p w (L ++ [u]) t0 (step2 w t u) := by
  obtain ⟨e1, e2, e3, e4⟩ := eval_spec T hu h.linked
  unfold step2
  simp only
  generalize hr : eval u t = r at *
  rw [e2.semi]
  have hlowr : u < w → t.semi r.1 = u := by
    intro hlt
    rw [e3 (by omega), h.other u (by omega), hsl u hlt]
  split
  · next hlt =>
    refine ⟨by have := e1.setSemi (x := t.semi r.1) (Nat.le_refl w); rwa [e2.semi] at this, by rw [← h.dom]; exact e2.dom, by rw [← h.bucket]; exact e2.bucket, ?_, ?_, ?_, ?_⟩
    · intro v hv
      show set t.semi w _ v = _
      rw [set_other _ _ hv]
      exact h.other v hv
    · show set t.semi w (t.semi r.1) w = w ∨ Hi E w (set t.semi w (t.semi r.1) w)
      rw [set_same]
      by_cases huw : w < u
      · obtain ⟨f1, f2, f3⟩ := e4 huw
        refine Or.inr (hi_of_semi T (he.resolve_right (by omega)) f1 f2 ?_)
        rw [h.other r.1 (by omega)]
        exact (hsh r.1 f1 (by have := f2.le T hu; omega)).1
      · by_cases hue : u = w
        · rw [e3 (by omega), hue] at hlt
          omega
        · rw [hlowr (by omega)]
          exact Or.inr (.edge (he.resolve_right hue))
    · intro v hv hvw
      show set t.semi w _ w ≤ v
      rw [set_same]
      rcases List.mem_append.1 hv with hv | hv
      · have := h.low v hv hvw; omega
      · rw [List.mem_singleton] at hv
        subst hv
        rw [hlowr hvw]
        omega
    · intro v hv hvw x hx hxv
      show set t.semi w _ w ≤ set t.semi w _ x
      rw [set_same, set_other _ _ (by omega)]
      rcases List.mem_append.1 hv with hv | hv
      · have := h.high v hv hvw x hx hxv; omega
      · rw [List.mem_singleton] at hv
        subst hv
        exact (e4 hvw).2.2 x hx hxv
  · next hge =>
    refine ⟨e1, by rw [← h.dom]; exact e2.dom, by rw [← h.bucket]; exact e2.bucket, ?_, ?_, ?_, ?_⟩
    · intro v hv
      rw [e2.semi]
      exact h.other v hv
    · rw [e2.semi]; exact h.hi
    · intro v hv hvw
      rw [e2.semi]
      rcases List.mem_append.1 hv with hv | hv
      · exact h.low v hv hvw
      · rw [List.mem_singleton] at hv
        subst hv
        rw [hlowr hvw] at hge
        omega
    · intro v hv hvw x hx hxv
      rw [e2.semi]
      rcases List.mem_append.1 hv with hv | hv
      · exact h.high v hv hvw x hx hxv
      · rw [List.mem_singleton] at hv
        subst hv
        have := (e4 hvw).2.2 x hx hxv
        omega

theorem step2_foldl (T : DfsTree n E p) {w : Nat} {t0 : Tdi}
    (hsl : ∀ v, v < w → t0.semi v = v) (hsh : ∀ v, w < v → v < n → IsSemi E (t0.semi v) v) (L' : List Nat) :
    ∀ (L : List Nat) (t : Tdi), (∀ u ∈ L', u < n ∧ (E u w ∨ u = w)) → Step2 n E p w L t0 t → Step2 n E p w (L ++ L') t0 (L'.foldl (step2 w) t) := by
  induction L' with
  | nil => intro L t _ h; simpa using h
  | cons u L' ih =>
    intro L t hL h
    rw [List.foldl_cons]
    have h1 := hL u (by simp)
    have := ih (L ++ [u]) (step2 w t u) (fun x hx => hL x (by simp [hx])) (step2_spec T h1.1 h1.2 hsl hsh h)
    rwa [List.append_assoc, List.singleton_append] at this

theorem step2_semi (T : DfsTree n E p) {w : Nat} (h0 : 0 < w) (hw : w < n) {preds : Nat → List Nat} (hp : PredsOk n E preds) {t0 t : Tdi}
    (hsh : ∀ v, w < v → v < n → IsSemi E (t0.semi v) v) (h : Step2 n E p w (preds w) t0 t) : IsSemi E (t.semi w) w := by
  have hlt : t.semi w ≤ p w := h.low (p w) (hp.complete w (p w) (T.parEdge h0 hw) (by have := T.parLt h0 hw; omega)) (T.parLt h0 hw)
  have hpw := T.parLt h0 hw
  refine ⟨h.hi.resolve_left (by omega), ?_⟩
  intro x hx
  by_cases hxw : w ≤ x
  · omega
  · obtain ⟨v, hv, hxv | ⟨u, h1, h2, h3⟩⟩ := hi_cases T hx
    · subst hxv
      exact h.low x (hp.complete w x hv (by omega)) (by omega)
    · have hvn := (T.edge hv).1
      have huv := h2.le T hvn
      have h4 := h.high v (hp.complete w v hv (by omega)) (by omega) u h1 h2
      rw [h.other u (by omega)] at h4
      have := (hsh u h1 (by omega)).2 x h3
      omega

/-! ## Buckets -/

/-- the list that starts at an entry -/
def Chain (b : Nat → Option Nat) : Option Nat → List Nat → Prop
  | none, [] => True
  | some v, x :: l => v = x ∧ Chain b (b v) l
  | _, _ => False

theorem Chain.congr {b b' : Nat → Option Nat} : ∀ {l : List Nat} {o : Option Nat}, (∀ v ∈ l, b' v = b v) → Chain b o l → Chain b' o l
  | [], none, _, _ => trivial
  | [], some _, _, h => h
  | _ :: _, none, _, h => h
  | x :: l, some v, hb, ⟨h1, h2⟩ => ⟨h1, by
      subst h1
      rw [hb v (by simp)]
      exact Chain.congr (fun y hy => hb y (by simp [hy])) h2⟩

theorem Chain.nil_iff {b : Nat → Option Nat} {o : Option Nat} (h : Chain b o []) : o = none := by
  cases o with
  | none => rfl
  | some v => cases h

theorem length_le_of_nodup {l : List Nat} : ∀ {n : Nat}, l.Nodup → (∀ x ∈ l, x < n) → l.length ≤ n := by
  intro n
  induction n generalizing l with
  | zero =>
    intro _ h
    cases l with
    | nil => simp
    | cons x l => exact absurd (h x (by simp)) (by omega)
  | succ n ih =>
    intro hn h
    have h1 := ih (hn.erase n) (fun x hx => by
      have := (hn.mem_erase_iff).1 hx
      have := h x this.2
      omega)
    have := List.length_erase_le (a := n) (l := l)
    by_cases hm : n ∈ l
    · rw [List.length_erase_of_mem hm] at h1
      omega
    · rw [List.erase_of_not_mem hm] at h1
      omega

/-- step 3 found the right entry for `v`; the path to the semidominator is linked -/
def DomRight (p : Nat → Nat) (k : Nat) (semi : Nat → Nat) (v d : Nat) : Prop :=
  (∀ x, Seg p (semi v) v x → k < x) ∧ ((d = semi v ∧ ∀ x, Seg p (semi v) v x → semi v ≤ semi x) ∨
  Seg p (semi v) v d ∧ semi d < semi v ∧ ∀ x, Seg p (semi v) v x → semi d ≤ semi x)

/-- the invariant of the loop: the entries above `k` are done -/
structure Inv (n : Nat) (E : Nat → Nat → Prop) (p : Nat → Nat) (k : Nat) (t : Tdi) (B : Nat → List Nat) : Prop where
  linked : Linked n p k t
  low : ∀ v, v ≤ k → t.semi v = v
  high : ∀ v, k < v → v < n → IsSemi E (t.semi v) v
  chain : ∀ s, s ≤ k → Chain t.bucket (t.bucket s) (B s)
  nodup : ∀ s, s ≤ k → (B s).Nodup
  elems : ∀ s, s ≤ k → ∀ v ∈ B s, k < v ∧ v < n ∧ t.semi v = s ∧ ∃ c, 0 < c ∧ c ≤ k ∧ p c = s ∧ Anc p c v
  done : ∀ v, k < v → v < n → (t.semi v ≤ k ∧ v ∈ B (t.semi v)) ∨ ∃ d, t.dom v = some d ∧ DomRight p k t.semi v d

/-- the invariant of step 3: `l` is what remains of the bucket of the parent of `w` -/
structure Inv3 (n : Nat) (E : Nat → Nat → Prop) (p : Nat → Nat) (w : Nat) (t : Tdi) (B : Nat → List Nat) (l : List Nat) : Prop where
  linked : Linked n p (w - 1) t
  low : ∀ v, v < w → t.semi v = v
  high : ∀ v, w ≤ v → v < n → IsSemi E (t.semi v) v
  chain : ∀ s, s < w → s ≠ p w → Chain t.bucket (t.bucket s) (B s)
  nodup : ∀ s, s < w → s ≠ p w → (B s).Nodup
  elems : ∀ s, s < w → s ≠ p w → ∀ v ∈ B s, w ≤ v ∧ v < n ∧ t.semi v = s ∧ ∃ c, 0 < c ∧ c ≤ w ∧ p c = s ∧ Anc p c v
  chainL : Chain t.bucket (t.bucket (p w)) l
  nodupL : l.Nodup
  elemsL : ∀ v ∈ l, w ≤ v ∧ v < n ∧ t.semi v = p w ∧ ∃ c, 0 < c ∧ c ≤ w ∧ p c = p w ∧ Anc p c v
  done : ∀ v, w ≤ v → v < n → v ∈ l ∨ (t.semi v < w ∧ t.semi v ≠ p w ∧ v ∈ B (t.semi v)) ∨ ∃ d, t.dom v = some d ∧ DomRight p (w - 1) t.semi v d

theorem step3_spec (T : DfsTree n E p) {w : Nat} (h0 : 0 < w) (hw : w < n) {B : Nat → List Nat} : ∀ fuel l t, l.length ≤ fuel →
    Inv3 n E p w t B l → Inv3 n E p w (step3 fuel (p w) t) B [] := by
  have hpw := T.parLt h0 hw
  intro fuel
  induction fuel with
  | zero =>
    intro l t hl h
    have : l = [] := List.length_eq_zero_iff.1 (by omega)
    subst this
    exact h
  | succ fuel ih =>
    intro l t hl h
    simp only [step3]
    cases l with
    | nil =>
      rw [h.chainL.nil_iff]
      exact h
    | cons v l =>
      have hb : t.bucket (p w) = some v ∧ Chain t.bucket (t.bucket v) l := by
        have := h.chainL
        cases hh : t.bucket (p w) with
        | none => rw [hh] at this; cases this
        | some x => rw [hh] at this; obtain ⟨rfl, h2⟩ := this; exact ⟨rfl, h2⟩
      rw [hb.1]
      simp only
      obtain ⟨v1, v2, v3, c, c0, c1, c2, c3⟩ := h.elemsL v (by simp)
      have hvl : v ∉ l := (List.nodup_cons.1 h.nodupL).1
      -- `v` is below `w`
      have hcw : c = w := by
        have hca : Anc p c w := T.contig v2 c1 v1 c3
        cases hca with
        | refl => rfl
        | step _ hca =>
          have := hca.le T (by omega)
          have := T.parLt c0 (by omega)
          omega
      subst hcw
      have hpv : Anc p (p c) v := (anc_par h0).trans c3
      have hL : Linked n p (c - 1) { t with bucket := set (set t.bucket (p c) (t.bucket v)) v none } :=
        ⟨h.linked.root, h.linked.labelRoot, h.linked.link⟩
      obtain ⟨e1, e2, -, e4⟩ := eval_spec T v2 hL
      generalize hr : eval v { t with bucket := set (set t.bucket (p c) (t.bucket v)) v none } = r at *
      obtain ⟨f1, f2, f3⟩ := e4 (by omega)
      have esemi : r.2.semi = t.semi := e2.semi
      have edom : r.2.dom = t.dom := e2.dom
      have ebucket : r.2.bucket = set (set t.bucket (p c) (t.bucket v)) v none := e2.bucket
      have f3 : ∀ x, c - 1 < x → Anc p x v → t.semi r.1 ≤ t.semi x := f3
      have hsegc : ∀ x, Seg p (p c) v x → c - 1 < x := by
        rintro x ⟨s1, s2, s3⟩
        refine Nat.lt_of_not_le fun hle => ?_
        have hxc : Anc p x c := s3.chain T c3 v2 (by omega)
        cases hxc with
        | refl => omega
        | step _ hxc =>
          have := hxc.le T (by omega)
          have := s1.le T (by omega)
          omega
      have hright : DomRight p (c - 1) t.semi v (if t.semi r.1 < t.semi v then r.1 else p c) := by
        unfold DomRight
        rw [v3]
        refine ⟨hsegc, ?_⟩
        split
        · next hlt =>
          exact Or.inr ⟨⟨hpv.chain T f2 v2 (by omega), by omega, f2⟩, hlt, fun x hx => f3 x (hsegc x hx) hx.2.2⟩
        · next hge =>
          refine Or.inl ⟨rfl, fun x hx => ?_⟩
          have := f3 x (hsegc x hx) hx.2.2
          omega
      have hpe : ∀ x ∈ l, x ≠ v ∧ x ≠ p c := by
        intro x hx
        have := (h.elemsL x (by simp [hx])).1
        exact ⟨fun hh => hvl (hh ▸ hx), by omega⟩
      refine ih l _ (by simpa using hl) ⟨?_, ?_, ?_, ?_, h.nodup, ?_, ?_, (List.nodup_cons.1 h.nodupL).2, ?_, ?_⟩
      · exact ⟨e1.root, e1.labelRoot, e1.link⟩
      · intro x hx; show r.2.semi x = x; rw [esemi]; exact h.low x hx
      · intro x hx hxn; show IsSemi E (r.2.semi x) x; rw [esemi]; exact h.high x hx hxn
      · intro s hs hsp
        show Chain r.2.bucket (r.2.bucket s) (B s)
        rw [ebucket, set_other _ _ (by omega), set_other _ _ hsp]
        refine Chain.congr (fun x hx => ?_) (h.chain s hs hsp)
        obtain ⟨g1, g2, g3, -⟩ := h.elems s hs hsp x hx
        rw [set_other _ _ (by rintro rfl; rw [v3] at g3; exact hsp g3.symm), set_other _ _ (by omega)]
      · intro s hs hsp x hx
        show _ ∧ _ ∧ r.2.semi x = s ∧ _
        rw [esemi]
        exact h.elems s hs hsp x hx
      · show Chain r.2.bucket (r.2.bucket (p c)) l
        rw [ebucket, set_other _ _ (by omega), set_same]
        refine Chain.congr (fun x hx => ?_) hb.2
        rw [set_other _ _ (hpe x hx).1, set_other _ _ (hpe x hx).2]
      · intro x hx
        show _ ∧ _ ∧ r.2.semi x = p c ∧ _
        rw [esemi]
        exact h.elemsL x (by simp [hx])
      · intro x hx hxn
        show x ∈ l ∨ (r.2.semi x < c ∧ r.2.semi x ≠ p c ∧ x ∈ B (r.2.semi x)) ∨
          ∃ d, set r.2.dom v (some (if r.2.semi r.1 < r.2.semi v then r.1 else p c)) x = some d ∧ DomRight p (c - 1) r.2.semi x d
        rw [esemi, edom]
        by_cases hxv : x = v
        · subst hxv
          exact Or.inr (Or.inr ⟨_, set_same _ _ _, hright⟩)
        · rw [set_other _ _ hxv]
          rcases h.done x hx hxn with hd | hd
          · rcases List.mem_cons.1 hd with rfl | hd
            · exact absurd rfl hxv
            · exact Or.inl hd
          · exact Or.inr hd

theorem child_of_anc {s w : Nat} (h : Anc p s w) (hne : s ≠ w) : ∃ c, 0 < c ∧ p c = s ∧ Anc p c w := by
  induction h with
  | refl => exact absurd rfl hne
  | @step b h0 h ih =>
    by_cases hs : s = p b
    · exact ⟨b, h0, hs.symm, .refl⟩
    · obtain ⟨c, c0, c1, c2⟩ := ih hs
      exact ⟨c, c0, c1, .step h0 c2⟩

theorem Linked.linkOne (T : DfsTree n E p) {w : Nat} (h0 : 0 < w) (hw : w < n) {t : Tdi} (hL : Linked n p w t) :
    Linked n p (w - 1) { t with ancestor := set t.ancestor w (some (p w)) } := by
  have hpw := T.parLt h0 hw
  refine ⟨?_, ?_, ?_⟩
  · intro v hv
    show set t.ancestor w _ v = none
    rw [set_other _ _ (by omega)]
    exact hL.root v (by omega)
  · intro v hv; exact hL.labelRoot v (by omega)
  · intro v hv hvn
    show ∃ a, set t.ancestor w (some (p w)) v = some a ∧ _
    by_cases hvw : v = w
    · subst hvw
      have hone : ∀ x, Seg p (p v) v x → x = v := by
        rintro x ⟨s1, s2, s3⟩
        cases s3 with
        | refl => rfl
        | step _ s3 =>
          have := s3.le T (by omega)
          have := s1.le T (by omega)
          omega
      refine ⟨p v, set_same _ _ _, anc_par h0, by omega, fun x hx => by have := hone x hx; omega, ?_, ?_⟩
      · show Seg p (p v) v (t.label v)
        rw [hL.labelRoot v (Nat.le_refl _)]
        exact ⟨anc_par h0, by omega, .refl⟩
      · intro x hx
        show t.semi (t.label v) ≤ _
        rw [hL.labelRoot v (Nat.le_refl _), hone x hx]
        exact Nat.le_refl _
    · rw [set_other _ _ hvw]
      obtain ⟨a, g1, g2, g3, g4, g5, g6⟩ := hL.link v (by omega) hvn
      exact ⟨a, g1, g2, g3, fun x hx => by have := g4 x hx; omega, g5, g6⟩

theorem process_spec (T : DfsTree n E p) {preds : Nat → List Nat} (hp : PredsOk n E preds) {k : Nat} {t : Tdi} {B : Nat → List Nat} (hk : k + 1 < n)
    (h : Inv n E p (k + 1) t B) : ∃ B', Inv n E p k (process n p preds t (k + 1)) B' := by
  have hpw := T.parLt (i := k + 1) (by omega) hk
  have h2 : Step2 n E p (k + 1) (preds (k + 1)) t ((preds (k + 1)).foldl (step2 (k + 1)) t) := by
    have := step2_foldl T (w := k + 1) (t0 := t) (fun v hv => h.low v (by omega)) h.high (preds (k + 1)) [] t
      (fun u hu => hp.sound _ u hk hu) ⟨h.linked, rfl, rfl, fun _ _ => rfl, Or.inl (h.low _ (Nat.le_refl _)), by simp, by simp⟩
    simpa using this
  have hsemi := step2_semi T (by omega) hk hp h.high h2
  unfold process
  simp only
  generalize (preds (k + 1)).foldl (step2 (k + 1)) t = t1 at *
  have hsw := hsemi.lt T (by omega) hk
  generalize hs : t1.semi (k + 1) = s at *
  have hbw : t1.bucket (k + 1) = none := by
    rw [h2.bucket]
    have hB : B (k + 1) = [] := by
      cases hB : B (k + 1) with
      | nil => rfl
      | cons v l =>
        obtain ⟨-, -, -, c, c0, c1, c2, -⟩ := h.elems (k + 1) (Nat.le_refl _) v (by rw [hB]; simp)
        have := T.parLt c0 (by omega)
        omega
    have := h.chain (k + 1) (Nat.le_refl _)
    rw [hB] at this
    exact this.nil_iff
  have hne : s ≠ k + 1 := by omega
  have hbs : set t1.bucket (k + 1) (t1.bucket s) (k + 1) = t1.bucket s := set_same _ _ _
  obtain ⟨c, c0, c1, c2⟩ := child_of_anc (hsemi.anc T (by omega) hk) hne
  have hcw := c2.le T hk
  -- the lists after the entry was put into its bucket
  let B1 : Nat → List Nat := fun x => if x = s then (k + 1) :: B s else B x
  have hB1s : B1 s = (k + 1) :: B s := by simp [B1]
  have hB1o : ∀ x, x ≠ s → B1 x = B x := fun x hx => by simp [B1, hx]
  let bk := set (set t1.bucket (k + 1) (t1.bucket s)) s (some (k + 1))
  have hnot : ∀ x, x ≤ k → (k + 1) ∉ B x := fun x hx hm => by have := (h.elems x (by omega) _ hm).1; omega
  have hchain : ∀ x, x ≤ k → Chain bk (bk x) (B1 x) := by
    intro x hx
    have hcongr : ∀ y, y ≤ k → ∀ v ∈ B y, bk v = t.bucket v := by
      intro y hy v hv
      have := (h.elems y (by omega) v hv).1
      show set (set t1.bucket (k + 1) (t1.bucket s)) s (some (k + 1)) v = _
      rw [set_other _ _ (by omega), set_other _ _ (by omega), h2.bucket]
    by_cases hxs : x = s
    · subst hxs
      rw [hB1s]
      show Chain bk (set _ x (some (k + 1)) x) _
      rw [set_same]
      refine ⟨rfl, ?_⟩
      have hbk : bk (k + 1) = t.bucket x := by
        show set (set t1.bucket (k + 1) (t1.bucket x)) x (some (k + 1)) (k + 1) = _
        rw [set_other _ _ (by omega), set_same, h2.bucket]
      rw [hbk]
      exact Chain.congr (hcongr x hx) (h.chain x (by omega))
    · rw [hB1o x hxs]
      have hbk : bk x = t.bucket x := by
        show set (set t1.bucket (k + 1) (t1.bucket s)) s (some (k + 1)) x = _
        rw [set_other _ _ hxs, set_other _ _ (by omega), h2.bucket]
      rw [hbk]
      exact Chain.congr (hcongr x hx) (h.chain x (by omega))
  have hnodup : ∀ x, x ≤ k → (B1 x).Nodup := by
    intro x hx
    by_cases hxs : x = s
    · subst hxs; rw [hB1s]; exact List.nodup_cons.2 ⟨hnot x hx, h.nodup x (by omega)⟩
    · rw [hB1o x hxs]; exact h.nodup x (by omega)
  have hsemi1 : ∀ v, v ≠ k + 1 → t1.semi v = t.semi v := h2.other
  have helems : ∀ x, x ≤ k → ∀ v ∈ B1 x, k + 1 ≤ v ∧ v < n ∧ t1.semi v = x ∧ ∃ c, 0 < c ∧ c ≤ k + 1 ∧ p c = x ∧ Anc p c v := by
    intro x hx v hv
    have hold : v ∈ B x → k + 1 ≤ v ∧ v < n ∧ t1.semi v = x ∧ ∃ c, 0 < c ∧ c ≤ k + 1 ∧ p c = x ∧ Anc p c v := by
      intro hv
      obtain ⟨g1, g2, g3, g4⟩ := h.elems x (by omega) v hv
      exact ⟨by omega, g2, by rw [hsemi1 v (by omega)]; exact g3, g4⟩
    by_cases hxs : x = s
    · subst hxs
      rw [hB1s] at hv
      rcases List.mem_cons.1 hv with rfl | hv
      · exact ⟨Nat.le_refl _, hk, hs, c, c0, hcw, c1, c2⟩
      · exact hold hv
    · rw [hB1o x hxs] at hv; exact hold hv
  have hhigh : ∀ v, k + 1 ≤ v → v < n → IsSemi E (t1.semi v) v := by
    intro v hv hvn
    by_cases hvw : v = k + 1
    · subst hvw; rw [hs]; exact hsemi
    · rw [hsemi1 v hvw]; exact h.high v (by omega) hvn
  have hRight : ∀ v d, k + 1 < v → v < n → DomRight p (k + 1) t.semi v d → DomRight p k t1.semi v d := by
    rintro v d hv hvn ⟨h1, hd⟩
    have hv1 := hsemi1 v (by omega)
    unfold DomRight
    rw [hv1]
    refine ⟨fun x hx => by have := h1 x hx; omega, ?_⟩
    rcases hd with ⟨d1, d2⟩ | ⟨d1, d2, d3⟩
    · exact Or.inl ⟨d1, fun x hx => by rw [hsemi1 x (by have := h1 x hx; omega)]; exact d2 x hx⟩
    · have := h1 d d1
      refine Or.inr ⟨d1, by rw [hsemi1 d (by omega)]; exact d2, fun x hx => ?_⟩
      rw [hsemi1 d (by omega), hsemi1 x (by have := h1 x hx; omega)]; exact d3 x hx
  have hlow : ∀ v, v < k + 1 → t1.semi v = v := fun v hv => by rw [hsemi1 v (by omega)]; exact h.low v (by omega)
  have h3 : Inv3 n E p (k + 1) { t1 with bucket := bk, ancestor := set t1.ancestor (k + 1) (some (p (k + 1))) } B1 (B1 (p (k + 1))) := by
    refine ⟨?_, hlow, hhigh, fun x hx _ => hchain x (by omega), fun x hx _ => hnodup x (by omega), fun x hx _ => helems x (by omega),
      hchain _ (by omega), hnodup _ (by omega), helems _ (by omega), ?_⟩
    · have := h2.linked.linkOne T (by omega) hk
      exact ⟨this.root, this.labelRoot, this.link⟩
    · intro v hv hvn
      show v ∈ B1 (p (k + 1)) ∨ (t1.semi v < k + 1 ∧ t1.semi v ≠ p (k + 1) ∧ v ∈ B1 (t1.semi v)) ∨
        ∃ d, t1.dom v = some d ∧ DomRight p k t1.semi v d
      have hin : t1.semi v < k + 1 → v ∈ B1 (t1.semi v) → v ∈ B1 (p (k + 1)) ∨ (t1.semi v < k + 1 ∧ t1.semi v ≠ p (k + 1) ∧ v ∈ B1 (t1.semi v)) ∨
        ∃ d, t1.dom v = some d ∧ DomRight p k t1.semi v d := by
        intro h1 h2
        by_cases hh : t1.semi v = p (k + 1)
        · rw [hh] at h2; exact Or.inl h2
        · exact Or.inr (Or.inl ⟨h1, hh, h2⟩)
      by_cases hvw : v = k + 1
      · subst hvw
        refine hin (by omega) ?_
        rw [hs, hB1s]
        simp
      · have hv1 := hsemi1 v hvw
        rcases h.done v (by omega) hvn with ⟨g1, g2⟩ | ⟨d, g1, g2⟩
        · have hle : t.semi v ≤ k := by
            refine Nat.le_of_lt_succ (Nat.lt_of_le_of_ne g1 fun hh => ?_)
            obtain ⟨-, -, -, c, c0, c1, c2, -⟩ := h.elems _ g1 v g2
            have := T.parLt c0 (by omega)
            omega
          refine hin (by omega) ?_
          rw [hv1]
          by_cases hx : t.semi v = s
          · rw [hx] at g2 ⊢; rw [hB1s]; simp [g2]
          · rw [hB1o _ hx]; exact g2
        · exact Or.inr (Or.inr ⟨d, by rw [h2.dom]; exact g1, hRight v d (by omega) hvn g2⟩)
  have hlen : (B1 (p (k + 1))).length ≤ n := length_le_of_nodup (hnodup _ (by omega)) fun x hx => (helems _ (by omega) x hx).2.1
  have h4 := step3_spec T (by omega) hk n _ _ hlen h3
  refine ⟨fun x => if x = p (k + 1) then [] else B1 x, ?_⟩
  show Inv n E p k (step3 n (p (k + 1)) { t1 with bucket := bk, ancestor := set t1.ancestor (k + 1) (some (p (k + 1))) }) _
  generalize step3 n (p (k + 1)) _ = t2 at h4
  refine ⟨h4.linked, fun v hv => h4.low v (by omega), fun v hv => h4.high v (by omega), ?_, ?_, ?_, ?_⟩
  · intro x hx
    by_cases hxp : x = p (k + 1)
    · subst hxp; simpa using h4.chainL
    · simpa [hxp] using h4.chain x (by omega) hxp
  · intro x hx
    by_cases hxp : x = p (k + 1)
    · simp [hxp]
    · simpa [hxp] using h4.nodup x (by omega) hxp
  · intro x hx v hv
    by_cases hxp : x = p (k + 1)
    · simp [hxp] at hv
    · simp only [hxp, if_false] at hv
      obtain ⟨g1, g2, g3, c, c0, c1, c2, c3⟩ := h4.elems x (by omega) hxp v hv
      refine ⟨by omega, g2, g3, c, c0, ?_, c2, c3⟩
      have : c ≠ k + 1 := by rintro rfl; exact hxp c2.symm
      omega
  · intro v hv hvn
    rcases h4.done v (by omega) hvn with g | ⟨g1, g2, g3⟩ | g
    · cases g
    · exact Or.inl ⟨by omega, by simpa [g2] using g3⟩
    · exact Or.inr g

theorem loop_spec (T : DfsTree n E p) {preds : Nat → List Nat} (hp : PredsOk n E preds) : ∀ k t B, k < n → Inv n E p k t B →
    ∃ B', Inv n E p 0 (loop n p preds k t) B' := by
  intro k
  induction k with
  | zero => intro t B _ h; exact ⟨B, h⟩
  | succ k ih =>
    intro t B hk h
    obtain ⟨B', h'⟩ := process_spec T hp hk h
    exact ih _ B' (by omega) h'

theorem inv_init : Inv n E p (n - 1) Tdi.init fun _ => [] := by
  refine ⟨⟨fun _ _ => rfl, fun _ _ => rfl, fun v h1 h2 => by omega⟩, fun _ _ => rfl, fun v h1 h2 => by omega, fun _ _ => trivial,
    fun _ _ => List.nodup_nil, fun _ _ v hv => absurd hv (by simp), fun v h1 h2 => by omega⟩

/-- after the loop -/
theorem loop_done (T : DfsTree n E p) {preds : Nat → List Nat} (hp : PredsOk n E preds) :
    (∀ v, 0 < v → v < n → IsSemi E ((loop n p preds (n - 1) Tdi.init).semi v) v) ∧
    ∀ v, 0 < v → v < n → ∃ d, (loop n p preds (n - 1) Tdi.init).dom v = some d ∧ DomRight p 0 (loop n p preds (n - 1) Tdi.init).semi v d := by
  obtain ⟨B, h⟩ := loop_spec T hp (n - 1) Tdi.init _ (by have := T.pos; omega) inv_init
  refine ⟨h.high, fun v h0 hv => ?_⟩
  rcases h.done v h0 hv with ⟨g1, g2⟩ | g
  · obtain ⟨-, -, -, c, c0, c1, -⟩ := h.elems _ g1 v g2
    omega
  · exact g

/-! ## Step 4 -/

theorem step4_spec (T : DfsTree n E p) {semi : Nat → Nat} {dom0 : Nat → Option Nat} (hs : ∀ v, 0 < v → v < n → IsSemi E (semi v) v)
    (hd : ∀ v, 0 < v → v < n → ∃ d, dom0 v = some d ∧ DomRight p 0 semi v d) (k : Nat) (hk : k < n) :
    let dom := ((List.range k).map (· + 1)).foldl (step4 semi) dom0
    dom 0 = dom0 0 ∧ (∀ v, 0 < v → v ≤ k → ∃ d, dom v = some d ∧ Idom E d v) ∧ ∀ v, k < v → dom v = dom0 v := by
  induction k with
  | zero => exact ⟨rfl, fun v h1 h2 => by omega, fun v _ => rfl⟩
  | succ k ih =>
    obtain ⟨i0, i1, i2⟩ := ih (by omega)
    simp only at i0 i1 i2 ⊢
    rw [List.range_succ, List.map_append, List.foldl_append]
    simp only [List.map_cons, List.map_nil, List.foldl_cons, List.foldl_nil]
    generalize ((List.range k).map (· + 1)).foldl (step4 semi) dom0 = dom at *
    obtain ⟨d, hd1, hd0, hd2⟩ := hd (k + 1) (by omega) hk
    have hsw := hs (k + 1) (by omega) hk
    have hlt := hsw.lt T (by omega) hk
    have hpos : ∀ x, Seg p (semi (k + 1)) (k + 1) x → 0 < x ∧ x < n := fun x hx => ⟨hd0 x hx, by have := hx.2.2.le T hk; omega⟩
    unfold step4
    rw [i2 (k + 1) (by omega), hd1]
    simp only
    rcases hd2 with ⟨d1, d2⟩ | ⟨d1, d2, d3⟩
    · rw [if_neg (by simpa using d1)]
      refine ⟨i0, fun v h0 hv => ?_, fun v hv => i2 v (by omega)⟩
      by_cases hvk : v ≤ k
      · exact i1 v h0 hvk
      · have : v = k + 1 := by omega
        subst this
        refine ⟨d, by rw [i2 _ (by omega), hd1], ?_⟩
        rw [d1]
        refine idom_of_semi T (by omega) hk hsw (fun u s' a1 a2 a3 hs' => ?_) fun u h0 hu => semi_exists T h0 hu
        have hu := hpos u ⟨a1, a2, a3⟩
        rw [hs'.unique (hs u hu.1 hu.2)]
        exact d2 u ⟨a1, a2, a3⟩
    · have hdn : d ≠ semi (k + 1) := fun hh => d1.2.1 hh.symm
      rw [if_pos hdn]
      have hdk := d1.2.2.le T hk
      have hdne : d ≠ k + 1 := by rintro rfl; omega
      have hdp := hpos d d1
      refine ⟨by rw [set_other _ _ (by omega)]; exact i0, fun v h0 hv => ?_, fun v hv => by rw [set_other _ _ (by omega)]; exact i2 v (by omega)⟩
      by_cases hvk : v ≤ k
      · rw [set_other _ _ (by omega)]; exact i1 v h0 hvk
      · have : v = k + 1 := by omega
        subst this
        rw [set_same]
        obtain ⟨e, he, hid⟩ := i1 d hdp.1 (by omega)
        refine ⟨e, he, ?_⟩
        refine idom_of_idom T (by omega) hk hsw d1.1 d1.2.1 d1.2.2 (hs d hdp.1 hdp.2) (fun x s' a1 a2 a3 hs' => ?_)
          (fun u h0 hu => semi_exists T h0 hu) hid
        have hx := hpos x ⟨a1, a2, a3⟩
        rw [hs'.unique (hs x hx.1 hx.2)]
        exact d3 x ⟨a1, a2, a3⟩

/-- the algorithm finds the immediate dominators -/
theorem idoms_spec (T : DfsTree n E p) {preds : Nat → List Nat} (hp : PredsOk n E preds) :
    idoms n p preds 0 = none ∧ ∀ v, 0 < v → v < n → ∃ d, idoms n p preds v = some d ∧ Idom E d v := by
  obtain ⟨h1, h2⟩ := loop_done T hp
  unfold idoms
  generalize loop n p preds (n - 1) Tdi.init = t at *
  have hn := T.pos
  obtain ⟨a, b, -⟩ := step4_spec T (dom0 := set t.dom 0 none) h1 (fun v h0 hv => by rw [set_other _ _ (by omega)]; exact h2 v h0 hv) (n - 1) (by omega)
  exact ⟨by rw [a, set_same], fun v h0 hv => b v h0 (by omega)⟩

end Verif.Model.Dom
