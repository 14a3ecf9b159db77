import Verif.Lemmas.DomTree
/-!
# Theory of the liveness check (Boissinot, Hack, Grund, Dupont de Dinechin, Rastello)

All vertices are numbers of a depth first search.
-/
namespace Verif.Spec.LiveTheory
open Verif.Spec.DomTheory

/-- an edge to an ancestor -/
def Back (E : Nat → Nat → Prop) (p : Nat → Nat) (u v : Nat) : Prop := E u v ∧ Anc p v u

/-- any other edge -/
def Red (E : Nat → Nat → Prop) (p : Nat → Nat) (u v : Nat) : Prop := E u v ∧ ¬ Anc p v u

/-- reachable by the edges `Rd`, which are no back edges -/
inductive R (Rd : Nat → Nat → Prop) : Nat → Nat → Prop
  | refl (u : Nat) : R Rd u u
  | step {u v w : Nat} : Rd u v → R Rd v w → R Rd u w

/-- the targets of the back edges `Bk` that matter for `q` -/
inductive TS (Rd Bk : Nat → Nat → Prop) : Nat → Nat → Prop
  | base {q s t : Nat} : R Rd q s → Bk s t → ¬ R Rd q t → TS Rd Bk q t
  | step {q s t t' : Nat} : R Rd q s → Bk s t → ¬ R Rd q t → TS Rd Bk t t' → TS Rd Bk q t'

/-- reachable without `d` -/
inductive Av (E : Nat → Nat → Prop) (d : Nat) : Nat → Nat → Prop
  | refl {u : Nat} : u ≠ d → Av E d u u
  | step {u v w : Nat} : u ≠ d → E u v → Av E d v w → Av E d u w

variable {n : Nat} {E : Nat → Nat → Prop} {p post : Nat → Nat}

theorem R.trans {Rd : Nat → Nat → Prop} {u v w : Nat} (h1 : R Rd u v) (h2 : R Rd v w) : R Rd u w := by
  induction h1 with
  | refl => exact h2
  | step h _ ih => exact .step h (ih h2)

theorem R.snoc {Rd : Nat → Nat → Prop} {u v w : Nat} (h1 : R Rd u v) (h2 : Rd v w) : R Rd u w := h1.trans (.step h2 (.refl w))

theorem R.lt (T : DfsTree n E p) {u v : Nat} (h : R (Red E p) u v) (hu : u < n) : v < n := by
  induction h with
  | refl => exact hu
  | step h _ ih => exact ih (T.edge h.1).2

theorem Av.trans {d u v w : Nat} (h1 : Av E d u v) (h2 : Av E d v w) : Av E d u w := by
  induction h1 with
  | refl => exact h2
  | step ha hb _ ih => exact .step ha hb (ih h2)

theorem Av.ne {d u v : Nat} (h : Av E d u v) : u ≠ d ∧ v ≠ d := by
  induction h with
  | refl h => exact ⟨h, h⟩
  | step h _ _ ih => exact ⟨h, ih.2⟩

/-- the edges of the tree are not back edges -/
theorem tree_R (T : DfsTree n E p) {u v : Nat} (h : Anc p u v) (hv : v < n) : R (Red E p) u v := by
  induction h with
  | refl => exact .refl _
  | @step b h0 h ih =>
    have := T.parLt h0 hv
    refine (ih (by omega)).snoc ⟨T.parEdge h0 hv, fun ha => ?_⟩
    have := ha.le T (by omega)
    omega

/-- the numbers at the end of visits show that there are no cycles -/
theorem R.post_le (hp : ∀ u v, Red E p u v → post v < post u) {u v : Nat} (h : R (Red E p) u v) : post v ≤ post u ∧ (post v = post u → u = v) := by
  induction h with
  | refl => exact ⟨Nat.le_refl _, fun _ => rfl⟩
  | step h _ ih => have := hp _ _ h; exact ⟨by omega, fun _ => by omega⟩

theorem R.antisymm (hp : ∀ u v, Red E p u v → post v < post u) {u v : Nat} (h1 : R (Red E p) u v) (h2 : R (Red E p) v u) : u = v := by
  have a := h1.post_le hp
  have b := h2.post_le hp
  exact a.2 (by omega)

/-- where paths without back edges lead -/
theorem R.low (T : DfsTree n E p) {q s : Nat} (h : R (Red E p) q s) (hq : q < n) : Anc p q s ∨ (s < q ∧ ¬ Anc p s q) := by
  suffices hh : ∀ x, x < n → R (Red E p) x s → Anc p q x ∨ (x < q ∧ ¬ Anc p x q) → Anc p q s ∨ (s < q ∧ ¬ Anc p s q) from hh q hq h (Or.inl .refl)
  intro x hx hr
  induction hr with
  | refl => exact id
  | @step x v w hv _ ih =>
    intro hL
    have hvn := (T.edge hv.1).2
    refine ih h (by exact hvn) ?_
    obtain ⟨he, hna⟩ := hv
    have hne : v ≠ x := by rintro rfl; exact hna .refl
    rcases hL with hL | ⟨hL1, hL2⟩
    · have hqx := hL.le T hx
      by_cases hvx : x < v
      · exact Or.inl (hL.trans (T.fwd he hvx))
      · by_cases hvq : q ≤ v
        · exact Or.inl (T.contig hx hvq (by omega) hL)
        · exact Or.inr ⟨by omega, fun ha => hna (ha.trans hL)⟩
    · by_cases hvx : x < v
      · have hxv := T.fwd he hvx
        by_cases hvq : v < q
        · exact Or.inr ⟨hvq, fun ha => hL2 (hxv.trans ha)⟩
        · exact absurd (T.contig hvn (by omega) (by omega) hxv) hL2
      · exact Or.inr ⟨by omega, fun ha => hna (T.contig hq (by omega) (by omega) ha)⟩

/-- targets that are not reachable without back edges have smaller numbers -/
theorem back_lt (T : DfsTree n E p) {q s t : Nat} (hq : q < n) (h1 : R (Red E p) q s) (h2 : Back E p s t) (h3 : ¬ R (Red E p) q t) : t < q := by
  have hs := h1.lt T hq
  have hts := h2.2.le T hs
  rcases h1.low T hq with h | ⟨h, -⟩
  · refine Nat.lt_of_not_le fun hle => h3 ?_
    exact tree_R T (h.chain T h2.2 hs hle) (by omega)
  · omega

theorem TS.lt (T : DfsTree n E p) {q t : Nat} (h : TS (Red E p) (Back E p) q t) (hq : q < n) : t < q := by
  induction h with
  | base h1 h2 h3 => exact back_lt T hq h1 h2 h3
  | step h1 h2 h3 _ ih =>
    have := back_lt T hq h1 h2 h3
    have := ih (by omega)
    omega

/-- it is a target of a back edge -/
theorem TS.target {q t : Nat} (h : TS (Red E p) (Back E p) q t) : ∃ s, Back E p s t := by
  induction h with
  | base _ h _ => exact ⟨_, h⟩
  | step _ _ _ _ ih => exact ih

/-- paths without back edges from below `d` do not contain `d` -/
theorem R.av (T : DfsTree n E p) (hp : ∀ u v, Red E p u v → post v < post u) {d q s : Nat} (hq : q < n) (hd : Anc p d q) (hne : d ≠ q)
    (h : R (Red E p) q s) : Av E d q s := by
  have key : ∀ x, R (Red E p) q x → x ≠ d := by
    rintro x hx rfl
    exact hne ((tree_R T hd hq).antisymm hp hx)
  suffices hh : ∀ x, R (Red E p) q x → R (Red E p) x s → Av E d x s from hh q (.refl q) h
  intro x hqx hr
  induction hr with
  | refl => exact .refl (key _ hqx)
  | step hv _ ih => exact .step (key _ hqx) hv.1 (ih ‹_› (hqx.snoc hv))

/-- soundness of the targets -/
theorem TS.av (T : DfsTree n E p) (hp : ∀ u v, Red E p u v → post v < post u) {d q t : Nat} (h : TS (Red E p) (Back E p) q t) (hq : q < n) (hd : Anc p d q)
    (hne : d ≠ q) (hdt : Anc p d t) (hnt : d ≠ t) : Av E d q t := by
  induction h with
  | base h1 h2 _ => exact (h1.av T hp hq hd hne).trans (.step ((h1.av T hp hq hd hne).ne.2) h2.1 (.refl (fun h => hnt h.symm)))
  | @step q s t t' h1 h2 h3 h4 ih =>
    have htq := back_lt T hq h1 h2 h3
    have htt := h4.lt T (by omega)
    have hdle := hdt.le T (by omega)
    have hd' : Anc p d t := T.contig hq (by omega) (by omega) hd
    have hav := h1.av T hp hq hd hne
    exact hav.trans (.step hav.ne.2 h2.1 (ih (by omega) hd' (by omega) hdt hnt))

theorem TS.ofR {q x t : Nat} (hx : R (Red E p) q x) (h : TS (Red E p) (Back E p) x t) : R (Red E p) q t ∨ TS (Red E p) (Back E p) q t := by
  induction h generalizing q with
  | @base x s t h1 h2 h3 =>
    by_cases hr : LiveTheory.R (Red E p) q t
    · exact Or.inl hr
    · exact Or.inr (.base (hx.trans h1) h2 hr)
  | @step x s t t' h1 h2 h3 h4 ih =>
    by_cases hr : LiveTheory.R (Red E p) q t
    · exact ih hr
    · exact Or.inr (.step (hx.trans h1) h2 hr h4)

/-- how the targets for a vertex follow from those for a successor -/
theorem TS.edge {q v t : Nat} (he : E q v) (h : t = v ∨ TS (Red E p) (Back E p) v t) : R (Red E p) q t ∨ TS (Red E p) (Back E p) q t := by
  have hred : R (Red E p) q v → R (Red E p) q t ∨ TS (Red E p) (Back E p) q t := by
    intro hr
    rcases h with rfl | h
    · exact Or.inl hr
    · exact h.ofR hr
  by_cases hr : LiveTheory.R (Red E p) q v
  · exact hred hr
  · have hb : Back E p q v := ⟨he, Classical.byContradiction fun ha => hr (.step ⟨he, ha⟩ (.refl v))⟩
    rcases h with rfl | h
    · exact Or.inr (.base (.refl q) hb hr)
    · exact Or.inr (.step (.refl q) hb hr h)

/-- before a vertex that `d` dominates there are only such vertices -/
theorem Av.dom {d q u : Nat} (h : Av E d q u) (hu : ¬ RA E d u) : ¬ RA E d q := by
  induction h with
  | refl => exact hu
  | @step u v w h1 h2 h3 ih => exact fun hr => ih hu (.step hr h2 h3.ne.1)

/-- completeness of the targets -/
theorem Av.target {d q u : Nat} (h : Av E d q u) (hu : ¬ RA E d u) : ∃ t, (t = q ∨ TS (Red E p) (Back E p) q t) ∧ ¬ RA E d t ∧ t ≠ d ∧ R (Red E p) t u := by
  induction h with
  | refl h => exact ⟨_, Or.inl rfl, hu, h, .refl _⟩
  | @step q v u h1 h2 h3 ih =>
    obtain ⟨t, ht, hd, hne, hr⟩ := ih hu
    rcases TS.edge h2 ht with h | h
    · exact ⟨q, Or.inl rfl, (Av.step h1 h2 h3).dom hu, h1, h.trans hr⟩
    · exact ⟨t, Or.inr h, hd, hne, hr⟩

/-- a cycle through a vertex that is no target -/
theorem Av.cycle (hp : ∀ u v, Red E p u v → post v < post u) {d q v : Nat} (he : E q v) (h : Av E d v q) (hu : ¬ RA E d q)
    (hb : ∀ s, ¬ Back E p s q) : ∃ t, TS (Red E p) (Back E p) q t ∧ ¬ RA E d t ∧ t ≠ d ∧ R (Red E p) t q := by
  obtain ⟨t, ht, hd, hne, hr⟩ := h.target (p := p) hu
  have htq : t ≠ q := by
    rintro rfl
    rcases ht with rfl | ht
    · exact hb _ ⟨he, .refl⟩
    · obtain ⟨s, hs⟩ := ht.target
      exact hb s hs
  rcases TS.edge he ht with h | h
  · exact absurd (hr.antisymm hp h) htq
  · exact ⟨t, h, hd, hne, hr⟩

end Verif.Spec.LiveTheory
