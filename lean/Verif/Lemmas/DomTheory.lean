import Verif.Spec.Dominance
/-!
# Dominators and semidominators

The theory behind the algorithm of Lengauer and Tarjan, for vertices that are numbered by a depth first search.
-/
namespace Verif.Spec.DomTheory

/-- `a` is an ancestor of `b` in the tree with the parents `p` and the root 0 -/
inductive Anc (p : Nat → Nat) (a : Nat) : Nat → Prop
  | refl : Anc p a a
  | step {b : Nat} : 0 < b → Anc p a (p b) → Anc p a b

/-- a numbering by a depth first search of the graph with the vertices below `n` and the edges `E` -/
structure DfsTree (n : Nat) (E : Nat → Nat → Prop) (p : Nat → Nat) : Prop where
  pos : 0 < n
  edge : ∀ {u v}, E u v → u < n ∧ v < n
  parLt : ∀ {i}, 0 < i → i < n → p i < i
  parEdge : ∀ {i}, 0 < i → i < n → E (p i) i
  fwd : ∀ {u v}, E u v → u < v → Anc p u v
  contig : ∀ {m y x}, x < n → m ≤ y → y ≤ x → Anc p m x → Anc p m y

/-- there is a path from the root 0 to `b` that avoids `a` -/
inductive RA (E : Nat → Nat → Prop) (a : Nat) : Nat → Prop
  | root : 0 ≠ a → RA E a 0
  | step {u v : Nat} : RA E a u → E u v → v ≠ a → RA E a v

/-- there is a path with at least one edge from `x` to `w` on which all vertices between are greater than `w` -/
inductive Hi (E : Nat → Nat → Prop) (w : Nat) : Nat → Prop
  | edge {x : Nat} : E x w → Hi E w x
  | cons {x y : Nat} : E x y → w < y → Hi E w y → Hi E w x

/-- `s` is the semidominator of `w` -/
def IsSemi (E : Nat → Nat → Prop) (s w : Nat) : Prop := Hi E w s ∧ ∀ x, Hi E w x → s ≤ x

variable {n : Nat} {E : Nat → Nat → Prop} {p : Nat → Nat}

theorem Anc.trans {a b c : Nat} (h1 : Anc p a b) (h2 : Anc p b c) : Anc p a c := by
  induction h2 with
  | refl => exact h1
  | step h0 _ ih => exact .step h0 ih

theorem Anc.le (T : DfsTree n E p) {a b : Nat} (h : Anc p a b) (hb : b < n) : a ≤ b := by
  induction h with
  | refl => omega
  | step h0 h ih =>
    have := T.parLt h0 hb
    have := ih (by omega)
    omega

/-- the ancestors of a vertex are a chain -/
theorem Anc.chain (T : DfsTree n E p) {a b c : Nat} (h1 : Anc p a c) (h2 : Anc p b c) (hc : c < n) (hab : a ≤ b) : Anc p a b := by
  induction h2 with
  | refl => exact h1
  | @step c h0 h ih =>
    have hp := T.parLt h0 hc
    cases h1 with
    | refl =>
      have := h.le T (by omega)
      omega
    | step _ h1 => exact ih h1 (by omega)

theorem anc_zero (T : DfsTree n E p) {b : Nat} (hb : b < n) : Anc p 0 b := by
  induction b using Nat.strongRecOn with
  | ind b ih =>
    by_cases h : b = 0
    · subst h; exact .refl
    · have := T.parLt (i := b) (by omega) hb
      exact .step (by omega) (ih (p b) this (by omega))

theorem anc_par (hb : 0 < b) : Anc p (p b) b := .step hb .refl

theorem Hi.lt (T : DfsTree n E p) {w x : Nat} (h : Hi E w x) : x < n ∧ w < n := by
  induction h with
  | edge h => exact T.edge h
  | cons h _ _ ih => exact ⟨(T.edge h).1, ih.2⟩

theorem Hi.anc_aux (T : DfsTree n E p) {w x : Nat} (h : Hi E w x) : ∀ {m}, m ≤ x → m < w → Anc p m x → Anc p m w := by
  induction h with
  | @edge x h =>
    intro m hm hw ha
    by_cases hx : x < w
    · exact ha.trans (T.fwd h hx)
    · exact T.contig (T.edge h).1 (by omega) (by omega) ha
  | @cons x y h hy _ ih =>
    intro m hm hw ha
    refine ih (by omega) hw ?_
    by_cases hx : x < y
    · exact ha.trans (T.fwd h hx)
    · exact T.contig (T.edge h).1 (by omega) (by omega) ha

/-- lemma 3 for all the vertices below `w`, in particular the semidominator -/
theorem Hi.anc (T : DfsTree n E p) {w x : Nat} (h : Hi E w x) (hx : x < w) : Anc p x w := h.anc_aux T (Nat.le_refl _) hx .refl

theorem hi_par (T : DfsTree n E p) {w : Nat} (h0 : 0 < w) (hw : w < n) : Hi E w (p w) := .edge (T.parEdge h0 hw)

theorem IsSemi.lt (T : DfsTree n E p) {s w : Nat} (h : IsSemi E s w) (h0 : 0 < w) (hw : w < n) : s < w := by
  have := h.2 _ (hi_par T h0 hw)
  have := T.parLt h0 hw
  omega

theorem IsSemi.anc (T : DfsTree n E p) {s w : Nat} (h : IsSemi E s w) (h0 : 0 < w) (hw : w < n) : Anc p s w := h.1.anc T (h.lt T h0 hw)

theorem IsSemi.unique {s s' w : Nat} (h : IsSemi E s w) (h' : IsSemi E s' w) : s = s' := Nat.le_antisymm (h.2 _ h'.1) (h'.2 _ h.1)

/-- the path in the tree avoids everything that is no ancestor -/
theorem ra_of_not_anc (T : DfsTree n E p) {a w : Nat} (hw : w < n) (h : ¬ Anc p a w) : RA E a w := by
  induction w using Nat.strongRecOn with
  | ind w ih =>
    by_cases h0 : w = 0
    · subst h0; exact .root (by rintro rfl; exact h .refl)
    · have h1 := T.parLt (i := w) (by omega) hw
      refine .step (ih (p w) h1 (by omega) fun h' => h (.step (by omega) h')) (T.parEdge (by omega) hw) ?_
      rintro rfl; exact h .refl

/-- going down the tree from `u` to `w` when everything from `u` on is different from `a` -/
theorem RA.down (T : DfsTree n E p) {a u w : Nat} (hw : w < n) (hr : RA E a u) (h : Anc p u w) (ha : a < u) : RA E a w := by
  induction h with
  | refl => exact hr
  | @step b h0 h ih =>
    have h1 := T.parLt h0 hw
    have := h.le T (by omega)
    exact .step (ih (by omega)) (T.parEdge h0 hw) (by omega)

/-- following a path above `w` -/
theorem RA.hi {a w x : Nat} (hr : RA E a x) (h : Hi E w x) (ha : a < w) : RA E a w := by
  induction h with
  | edge h => exact .step hr h (by omega)
  | cons h hy _ ih => exact ih (.step hr h (by omega))

/-- lemma 4: a dominator is an ancestor of the semidominator -/
theorem dom_anc_semi (T : DfsTree n E p) {d w s : Nat} (hs : IsSemi E s w) (h0 : 0 < w) (hw : w < n) (hd : ¬ RA E d w) (hdw : d ≠ w) :
    Anc p d s := by
  refine Classical.byContradiction fun hc => hd ?_
  have hsw := hs.lt T h0 hw
  have h1 := ra_of_not_anc T (by omega) hc
  have hda : Anc p d w := Classical.byContradiction fun h => hd (ra_of_not_anc T hw h)
  have := hda.le T hw
  exact h1.hi hs.1 (by omega)

/-- a path whose inner vertices satisfy `S` -/
inductive Via (E : Nat → Nat → Prop) (S : Nat → Prop) (y : Nat) : Nat → Prop
  | edge {x : Nat} : E x y → Via E S y x
  | cons {x z : Nat} : E x z → S z → Via E S y z → Via E S y x

theorem Via.snoc {S : Nat → Prop} {x z y : Nat} (h : Via E S z x) (hz : S z) (he : E z y) : Via E S y x := by
  induction h with
  | edge h => exact .cons h hz (.edge he)
  | cons h1 h2 _ ih => exact .cons h1 h2 ih

/-- lemma 1: a path to a greater vertex contains an ancestor of it -/
theorem Via.anc (T : DfsTree n E p) {S : Nat → Prop} {z y : Nat} (h : Via E S y z) (hS : ¬ S y) : z < y → S z → ∃ m, S m ∧ Anc p m y := by
  induction h with
  | @edge z h => exact fun hz hs => ⟨z, hs, T.fwd h hz⟩
  | @cons z z1 h h1 _ ih =>
    intro hz hs
    by_cases hlt : z1 < y
    · exact ih hlt h1
    · have : z1 ≠ y := by rintro rfl; exact hS h1
      exact ⟨z, hs, T.contig (T.edge h).2 (by omega) (by omega) (T.fwd h (by omega))⟩

theorem Via.hi (T : DfsTree n E p) {S : Nat → Prop} {x y : Nat} (h : Via E S y x) (hS : ¬ S y) (hm : ∀ m, S m → ¬ Anc p m y) : Hi E y x := by
  induction h with
  | edge h => exact .edge h
  | @cons x z h h1 h2 ih =>
    refine .cons h ?_ ih
    refine Nat.lt_of_not_le fun hle => ?_
    have hne : z ≠ y := by rintro rfl; exact hS h1
    obtain ⟨m, h3, h4⟩ := h2.anc T hS (by omega) h1
    exact hm m h3 h4

/-- the core of theorems 2 and 3: a path that avoids the ancestor `d` of `w` jumps over `d` -/
theorem jump (T : DfsTree n E p) {d w : Nat} (hw : w < n) (hd : Anc p d w) (hr : RA E d w) :
    ∃ y x, Anc p d y ∧ d ≠ y ∧ Anc p y w ∧ x < d ∧ Hi E y x := by
  refine Classical.byContradiction fun hc => ?_
  -- the vertices that are not on the path of the tree from `d` to `w`
  let S : Nat → Prop := fun z => d < z ∧ ¬ (Anc p d z ∧ Anc p z w)
  have key : ∀ z, RA E d z → z < d ∨ (S z ∧ ∃ x, x < d ∧ Via E S z x) := by
    intro z hz
    induction hz with
    | root h => exact Or.inl (by omega)
    | @step u v hu he hv ih =>
      by_cases hlt : v < d
      · exact Or.inl hlt
      · have hvia : ∃ x, x < d ∧ Via E S v x := by
          rcases ih with h | ⟨h1, x, hx, h2⟩
          · exact ⟨u, h, .edge he⟩
          · exact ⟨x, hx, h2.snoc h1 he⟩
        refine Or.inr ⟨⟨by omega, ?_⟩, hvia⟩
        rintro ⟨ha, hb⟩
        obtain ⟨x, hx, h2⟩ := hvia
        refine hc ⟨v, x, ha, by omega, hb, hx, h2.hi T (fun h => h.2 ⟨ha, hb⟩) ?_⟩
        intro m hm hmv
        exact hm.2 ⟨ha.chain T hmv (T.edge he).2 (by have := hm.1; omega), hmv.trans hb⟩
  have hle := hd.le T hw
  rcases key w hr with h | ⟨h, -⟩
  · omega
  · exact h.2 ⟨hd, .refl⟩

/-- the immediate dominator, with the relation of this file -/
def Idom (E : Nat → Nat → Prop) (d w : Nat) : Prop := d ≠ w ∧ ¬ RA E d w ∧ ∀ a, a ≠ w → ¬ RA E a w → ¬ RA E a d

/-- theorem 2 -/
theorem idom_of_semi (T : DfsTree n E p) {s w : Nat} (h0 : 0 < w) (hw : w < n) (hs : IsSemi E s w)
    (hu : ∀ u s', Anc p s u → s ≠ u → Anc p u w → IsSemi E s' u → s ≤ s')
    (hex : ∀ u, 0 < u → u < n → ∃ s', IsSemi E s' u) : Idom E s w := by
  have hsw := hs.lt T h0 hw
  refine ⟨by omega, ?_, ?_⟩
  · intro hr
    obtain ⟨y, x, h1, h2, h3, h4, h5⟩ := jump T hw (hs.anc T h0 hw) hr
    have hyw := h3.le T hw
    have hsy := h1.le T (by omega)
    obtain ⟨s', hs'⟩ := hex y (by omega) (by omega)
    have := hu y s' h1 h2 h3 hs'
    have := hs'.2 x h5
    omega
  · intro a ha hda hra
    have h1 := dom_anc_semi T hs h0 hw hda ha
    have := h1.le T (by omega)
    exact hda (hra.hi hs.1 (by omega))

/-- theorem 3 -/
theorem idom_of_idom (T : DfsTree n E p) {s w u su d : Nat} (h0 : 0 < w) (hw : w < n) (hs : IsSemi E s w)
    (h1 : Anc p s u) (h2 : s ≠ u) (h3 : Anc p u w) (hsu : IsSemi E su u) (hmin : ∀ x s', Anc p s x → s ≠ x → Anc p x w → IsSemi E s' x → su ≤ s')
    (hex : ∀ u, 0 < u → u < n → ∃ s', IsSemi E s' u) (hd : Idom E d u) : Idom E d w := by
  have huw := h3.le T hw
  have hsu' := h1.le T (by omega)
  have hsw := hs.lt T h0 hw
  obtain ⟨d1, d2, d3⟩ := hd
  have hdsu : Anc p d su := dom_anc_semi T hsu (by omega) (by omega) d2 d1
  have hdu : Anc p d u := hdsu.trans (hsu.anc T (by omega) (by omega))
  have hdle := hdu.le T (by omega)
  have hdsu' := hdsu.le T (by have := hsu.lt T (by omega) (by omega); omega)
  refine ⟨by omega, ?_, ?_⟩
  · intro hr
    obtain ⟨y, x, j1, j2, j3, j4, j5⟩ := jump T hw (hdu.trans h3) hr
    have hyw := j3.le T hw
    have hdy := j1.le T (by omega)
    obtain ⟨s', hs'⟩ := hex y (by omega) (by omega)
    have hs'x := hs'.2 x j5
    by_cases hys : s < y
    · have hsy : Anc p s y := (hs.anc T h0 hw).chain T j3 hw (by omega)
      have := hmin y s' hsy (by omega) j3 hs'
      omega
    · have hyu : Anc p y u := (j3.chain T (hs.anc T h0 hw) hw (by omega)).trans h1
      have hx : RA E d x := ra_of_not_anc T (by omega) fun h => by have := h.le T (by omega); omega
      exact d2 ((hx.hi j5 (by omega)).down T (by omega) hyu (by omega))
  · intro a ha hda
    have h4 := dom_anc_semi T hs h0 hw hda ha
    have h5 := h4.le T (by omega)
    refine d3 a (by omega) fun hra => hda (hra.down T hw h3 (by omega))

/-- theorem 4: one half -/
theorem hi_cases (T : DfsTree n E p) {w x : Nat} (h : Hi E w x) : ∃ v, E v w ∧ (x = v ∨ ∃ u, w < u ∧ Anc p u v ∧ Hi E u x) := by
  induction h with
  | @edge x h => exact ⟨x, h, Or.inl rfl⟩
  | @cons x y h hy _ ih =>
    obtain ⟨v, hv, hx | ⟨u, h1, h2, h3⟩⟩ := ih
    · subst hx
      exact ⟨y, hv, Or.inr ⟨y, hy, .refl, .edge h⟩⟩
    · refine ⟨v, hv, Or.inr ?_⟩
      rcases Nat.lt_trichotomy y u with hlt | rfl | hgt
      · exact ⟨y, hy, (h3.anc T hlt).trans h2, .edge h⟩
      · exact ⟨y, hy, h2, .edge h⟩
      · exact ⟨u, h1, h2, .cons h hgt h3⟩

theorem Hi.append {u w x : Nat} (h : Hi E u x) (hu : w < u) (h2 : Hi E w u) : Hi E w x := by
  induction h with
  | edge h => exact .cons h hu h2
  | cons h hy _ ih => exact .cons h (by omega) ih

theorem hi_tree (T : DfsTree n E p) {u v w : Nat} (hv : v < n) (h : Anc p u v) (hu : w < u) (he : E v w) : Hi E w u := by
  suffices hh : ∀ v, v < n → Anc p u v → Hi E w v → Hi E w u from hh v hv h (.edge he)
  intro v hv h
  induction h with
  | refl => exact id
  | @step b h0 h ih =>
    intro hb
    have h1 := T.parLt h0 hv
    have := h.le T (by omega)
    exact ih (by omega) (.cons (T.parEdge h0 hv) (by omega) hb)

/-- theorem 4: the other half -/
theorem hi_of_semi (T : DfsTree n E p) {u v w s : Nat} (he : E v w) (hu : w < u) (h : Anc p u v) (hs : Hi E u s) : Hi E w s :=
  hs.append hu (hi_tree T (T.edge he).1 h hu he)

theorem semi_exists (T : DfsTree n E p) {w : Nat} (h0 : 0 < w) (hw : w < n) : ∃ s, IsSemi E s w := by
  have : ∀ k x, x ≤ k → Hi E w x → ∃ s, IsSemi E s w := by
    intro k
    induction k using Nat.strongRecOn with
    | ind k ih =>
      intro x hx h
      by_cases hm : ∃ y, y < x ∧ Hi E w y
      · obtain ⟨y, hy, h'⟩ := hm
        exact ih y (by omega) y (Nat.le_refl _) h'
      · exact ⟨x, h, fun y hy => Nat.le_of_not_lt fun hlt => hm ⟨y, hlt, hy⟩⟩
  exact this _ _ (Nat.le_refl _) (hi_par T h0 hw)

end Verif.Spec.DomTheory
