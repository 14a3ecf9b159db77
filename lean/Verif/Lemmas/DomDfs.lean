import Verif.Lemmas.DomLT
import Verif.Spec.Dominance
/-!
# The depth first search numbers the reachable blocks
-/
namespace Verif.Model.Dom
open Verif.Spec.DomTheory Verif.Spec

/-- numbers and blocks of entries agree -/
structure Wf (n : Nat) (s : Dfs) : Prop where
  iff : ∀ b i, s.num b = some i ↔ i < s.used ∧ s.block i = b
  lt : ∀ i, i < s.used → s.block i < n

/-- what was visited before remains -/
structure Ext (s s' : Dfs) : Prop where
  used : s.used ≤ s'.used
  num : ∀ b i, s.num b = some i → s'.num b = some i
  block : ∀ i, i < s.used → s'.block i = s.block i
  parent : ∀ i, i < s.used → s'.parent i = s.parent i

theorem Ext.refl (s : Dfs) : Ext s s := ⟨Nat.le_refl _, fun _ _ h => h, fun _ _ => rfl, fun _ _ => rfl⟩

theorem Ext.trans {s s' s'' : Dfs} (h1 : Ext s s') (h2 : Ext s' s'') : Ext s s'' :=
  ⟨Nat.le_trans h1.used h2.used, fun b i h => h2.num b i (h1.num b i h),
    fun i h => (h2.block i (Nat.lt_of_lt_of_le h h1.used)).trans (h1.block i h),
    fun i h => (h2.parent i (Nat.lt_of_lt_of_le h h1.used)).trans (h1.parent i h)⟩

/-- the entries of the subtree of `j` are `j`, ..., `last`, and the successors of `j` are not after them -/
def Node (succ : Nat → List Nat) (s : Dfs) (j : Nat) : Prop :=
  ∃ last, j ≤ last ∧ last < s.used ∧ (∀ x, j < x → x ≤ last → j ≤ s.parent x) ∧
    (∀ x, last < x → x < s.used → s.parent x < j ∨ last < s.parent x) ∧
    ∀ c ∈ succ (s.block j), ∃ m, s.num c = some m ∧ m ≤ last

/-- an edge of the tree -/
def TreeEdge (succ : Nat → List Nat) (s : Dfs) (j : Nat) : Prop := s.parent j < j ∧ s.block j ∈ succ (s.block (s.parent j))

theorem Wf.used_le {n : Nat} {s : Dfs} (h : Wf n s) : s.used ≤ n := by
  have h1 : ((List.range s.used).map s.block).Nodup := by
    rw [List.nodup_iff_pairwise_ne, List.pairwise_map]
    refine List.Pairwise.imp_of_mem ?_ (List.nodup_iff_pairwise_ne.1 (List.nodup_range (n := s.used)))
    intro a b ha hb hab hh
    have h1 := (h.iff (s.block a) a).2 ⟨List.mem_range.1 ha, rfl⟩
    have h2 := (h.iff (s.block a) b).2 ⟨List.mem_range.1 hb, hh.symm⟩
    rw [h1] at h2
    exact hab (Option.some.inj h2)
  have := length_le_of_nodup h1 fun x hx => by
    obtain ⟨i, hi, rfl⟩ := List.mem_map.1 hx
    exact h.lt i (List.mem_range.1 hi)
  simpa using this

/-- nothing that comes later changes a finished subtree -/
theorem Node.ext {succ : Nat → List Nat} {s s' : Dfs} {j : Nat} (h : Node succ s j) (he : Ext s s')
    (hnew : ∀ x, s.used ≤ x → x < s'.used → s'.parent x < j ∨ s.used ≤ s'.parent x) : Node succ s' j := by
  obtain ⟨last, h1, h2, h3, h4, h5⟩ := h
  have hu := he.used
  refine ⟨last, h1, by omega, fun x a b => by rw [he.parent x (by omega)]; exact h3 x a b, fun x a b => ?_, fun c hc => ?_⟩
  · by_cases hx : x < s.used
    · rw [he.parent x hx]; exact h4 x a hx
    · rcases hnew x (by omega) b with h | h
      · exact Or.inl h
      · exact Or.inr (by omega)
  · rw [he.block j (by omega)] at hc
    obtain ⟨m, a, b⟩ := h5 c hc
    exact ⟨m, he.num c m a, b⟩

theorem TreeEdge.ext {succ : Nat → List Nat} {s s' : Dfs} {j : Nat} (h : TreeEdge succ s j) (hj : j < s.used) (he : Ext s s') : TreeEdge succ s' j := by
  unfold TreeEdge at *
  rw [he.parent j hj, he.block j hj, he.block _ (by omega)]
  exact h

/-- what a visit of `b` did -/
structure Visited (n : Nat) (succ : Nat → List Nat) (b par : Nat) (s s' : Dfs) : Prop where
  wf : Wf n s'
  ext : Ext s s'
  num : ∃ i, s'.num b = some i
  old : ∀ i, s.num b = some i → s' = s
  new : s.num b = none → s.used < s'.used ∧ s'.num b = some s.used ∧ s'.parent s.used = par
  node : ∀ j, s.used ≤ j → j < s'.used → Node succ s' j
  inner : ∀ j, s.used < j → j < s'.used → s.used ≤ s'.parent j ∧ TreeEdge succ s' j

/-- the successors visited so far, where the entry is `i` -/
structure Visiting (n : Nat) (succ : Nat → List Nat) (i : Nat) (L : List Nat) (s s' : Dfs) : Prop where
  wf : Wf n s'
  ext : Ext s s'
  num : ∀ c ∈ L, ∃ m, s'.num c = some m
  node : ∀ j, i < j → j < s'.used → Node succ s' j
  inner : ∀ j, i < j → j < s'.used → i ≤ s'.parent j ∧ TreeEdge succ s' j

theorem visiting_foldl {n : Nat} {succ : Nat → List Nat} {f : Nat → Dfs → Dfs} {i b : Nat} {s : Dfs} (hi : i < s.used) (hb : s.block i = b)
    (hf : ∀ c s', c < n → Wf n s' → Ext s s' → Visited n succ c i s' (f c s')) (L' : List Nat) :
    ∀ (L : List Nat) (s' : Dfs), (∀ c ∈ L', c < n ∧ (s.num c = none → c ∈ succ b)) → Visiting n succ i L s s' →
      Visiting n succ i (L ++ L') s (L'.foldl (fun s c => f c s) s') := by
  induction L' with
  | nil => intro L s' _ h; simpa using h
  | cons c L' ih =>
    intro L s' hL h
    rw [List.foldl_cons]
    have hu := h.ext.used
    have hv := hf c s' (hL c (by simp)).1 h.wf h.ext
    suffices hh : Visiting n succ i (L ++ [c]) s (f c s') by
      have := ih (L ++ [c]) _ (fun x hx => hL x (by simp [hx])) hh
      rwa [List.append_assoc, List.singleton_append] at this
    have hbi : (f c s').block i = b := by rw [hv.ext.block i (by omega), h.ext.block i (by omega), hb]
    have hnew : ∀ x, s'.used ≤ x → x < (f c s').used → (f c s').parent x = i ∧ x = s'.used ∨ s'.used ≤ (f c s').parent x ∧ s'.used < x := by
      intro x h1 h2
      by_cases hx : x = s'.used
      · cases hc : s'.num c with
        | none => subst hx; exact Or.inl ⟨(hv.new hc).2.2, rfl⟩
        | some m => have := hv.old m hc; rw [this] at h2; omega
      · exact Or.inr ⟨(hv.inner x (by omega) h2).1, by omega⟩
    refine ⟨hv.wf, h.ext.trans hv.ext, ?_, ?_, ?_⟩
    · intro x hx
      rcases List.mem_append.1 hx with hx | hx
      · obtain ⟨m, hm⟩ := h.num x hx
        exact ⟨m, hv.ext.num x m hm⟩
      · rw [List.mem_singleton] at hx
        subst hx
        exact hv.num
    · intro j h1 h2
      by_cases hj : j < s'.used
      · refine (h.node j h1 hj).ext hv.ext fun x a b => ?_
        rcases hnew x a b with h | h
        · exact Or.inl (by omega)
        · exact Or.inr h.1
      · exact hv.node j (by omega) h2
    · intro j h1 h2
      by_cases hj : j < s'.used
      · rw [hv.ext.parent j hj]
        exact ⟨(h.inner j h1 hj).1, (h.inner j h1 hj).2.ext hj hv.ext⟩
      · rcases hnew j (by omega) h2 with ⟨g1, g2⟩ | ⟨g1, g2⟩
        · refine ⟨by omega, by omega, ?_⟩
          rw [g1, hbi]
          cases hc : s'.num c with
          | none =>
            have := ((hv.wf.iff c s'.used).1 (hv.new hc).2.1).2
            rw [g2, this]
            refine (hL c (by simp)).2 ?_
            cases hcs : s.num c with
            | none => rfl
            | some m => rw [h.ext.num c m hcs] at hc; cases hc
          | some m => have := hv.old m hc; rw [this] at h2; omega
        · exact ⟨by omega, (hv.inner j g2 h2).2⟩

theorem visit_spec {n : Nat} {succ : Nat → List Nat} (hsucc : ∀ b c, b < n → c ∈ succ b → c < n) : ∀ fuel b par s, b < n → Wf n s →
    n < fuel + s.used → Visited n succ b par s (visit succ fuel b par s) := by
  intro fuel
  induction fuel with
  | zero => intro b par s _ hw hf; have := hw.used_le; omega
  | succ fuel ih =>
    intro b par s hb hw hf
    simp only [visit]
    cases hs : s.num b with
    | some i =>
      simp only [Option.isSome_some, if_true]
      exact ⟨hw, Ext.refl s, ⟨i, hs⟩, fun _ _ => rfl, by simp [hs], fun j h1 h2 => by omega, fun j h1 h2 => by omega⟩
    | none =>
      simp only [Option.isSome_none, Bool.false_eq_true, if_false]
      generalize hs1 : ({ num := set s.num b (some s.used), block := set s.block s.used b, parent := set s.parent s.used par, used := s.used + 1 } : Dfs) = s1
      have e1 : s1.num = set s.num b (some s.used) := by rw [← hs1]
      have e2 : s1.block = set s.block s.used b := by rw [← hs1]
      have e3 : s1.parent = set s.parent s.used par := by rw [← hs1]
      have e4 : s1.used = s.used + 1 := by rw [← hs1]
      have hext : Ext s s1 := by
        refine ⟨by omega, fun c i hc => ?_, fun i hi => by rw [e2, set_other _ _ (by omega)], fun i hi => by rw [e3, set_other _ _ (by omega)]⟩
        rw [e1, set_other _ _ (by rintro rfl; rw [hs] at hc; cases hc)]
        exact hc
      have hwf : Wf n s1 := by
        refine ⟨fun c i => ?_, fun i hi => ?_⟩
        · rw [e1, e2, e4]
          by_cases hc : c = b
          · subst hc
            rw [set_same]
            constructor
            · intro h; cases h; exact ⟨by omega, set_same _ _ _⟩
            · rintro ⟨h1, h2⟩
              by_cases hi : i = s.used
              · rw [hi]
              · rw [set_other _ _ hi] at h2
                have := (hw.iff c i).2 ⟨by omega, h2⟩
                rw [hs] at this; cases this
          · rw [set_other _ _ hc, hw.iff]
            constructor
            · rintro ⟨h1, h2⟩; exact ⟨by omega, by rw [set_other _ _ (by omega)]; exact h2⟩
            · rintro ⟨h1, h2⟩
              by_cases hi : i = s.used
              · rw [hi, set_same] at h2; exact absurd h2.symm hc
              · rw [set_other _ _ hi] at h2; exact ⟨by omega, h2⟩
        · rw [e2]
          by_cases hi' : i = s.used
          · rw [hi', set_same]; exact hb
          · rw [set_other _ _ hi']; exact hw.lt i (by omega)
      have hbi : s1.block s.used = b := by rw [e2, set_same]
      have h0 : Visiting n succ s.used [] s1 s1 :=
        ⟨hwf, Ext.refl _, by simp, fun j h1 h2 => by omega, fun j h1 h2 => by omega⟩
      have hv := visiting_foldl (f := fun c s' => visit succ fuel c s.used s') (by omega) hbi (fun c s' hc hw' hu => ih c s.used s' hc hw' (by have := hu.used; omega))
        (succ b).reverse [] s1 (fun c hc => ⟨hsucc b c hb (List.mem_reverse.1 hc), fun _ => List.mem_reverse.1 hc⟩) h0
      rw [List.nil_append] at hv
      generalize (succ b).reverse.foldl (fun s' c => visit succ fuel c s.used s') s1 = s2 at hv ⊢
      have hu := hv.ext.used
      have hnum : s2.num b = some s.used := hv.ext.num b s.used (by rw [e1, set_same])
      refine ⟨hv.wf, hext.trans hv.ext, ⟨_, hnum⟩, by simp [hs], fun _ => ⟨by omega, hnum, ?_⟩, ?_, fun j h1 h2 => hv.inner j h1 h2⟩
      · rw [hv.ext.parent _ (by omega), e3, set_same]
      · intro j h1 h2
        by_cases hj : j = s.used
        · subst hj
          refine ⟨s2.used - 1, by omega, by omega, fun x a b => (hv.inner x a (by omega)).1, fun x a b => by omega, fun c hc => ?_⟩
          rw [hv.ext.block _ (by omega), hbi] at hc
          obtain ⟨m, hm⟩ := hv.num c (List.mem_reverse.2 hc)
          have := ((hv.wf.iff c m).1 hm).1
          exact ⟨m, hm, by omega⟩
        · exact hv.node j (by omega) h2

/-- the graph between entries -/
def Dfs.Edge (succ : Nat → List Nat) (s : Dfs) (i j : Nat) : Prop := i < s.used ∧ j < s.used ∧ s.block j ∈ succ (s.block i)

theorem anc_of_range {s : Dfs} {j last : Nat} (h1 : ∀ x, j < x → x ≤ last → j ≤ s.parent x) (h2 : ∀ x, 0 < x → x ≤ last → s.parent x < x) :
    ∀ x, j ≤ x → x ≤ last → Anc s.parent j x := by
  intro x
  induction x using Nat.strongRecOn with
  | ind x ih =>
    intro hj hl
    by_cases hx : x = j
    · subst hx; exact .refl
    · have a := h1 x (by omega) hl
      have b := h2 x (by omega) hl
      exact .step (by omega) (ih _ b a (by omega))

/-- a state in which everything is finished -/
structure Finished (n : Nat) (succ : Nat → List Nat) (s : Dfs) : Prop where
  wf : Wf n s
  pos : 0 < s.used
  node : ∀ j, j < s.used → Node succ s j
  inner : ∀ j, 0 < j → j < s.used → TreeEdge succ s j

theorem Finished.tree {n : Nat} {succ : Nat → List Nat} {s : Dfs} (h : Finished n succ s) : DfsTree s.used (s.Edge succ) s.parent := by
  have key : ∀ j, j < s.used → ∃ last, last < s.used ∧ (∀ x, j ≤ x → x ≤ last → Anc s.parent j x) ∧ (∀ x, x < s.used → Anc s.parent j x → x ≤ last) ∧
      ∀ c ∈ succ (s.block j), ∃ m, s.num c = some m ∧ m ≤ last := by
    intro j hj
    obtain ⟨last, h1, h2, h3, h4, h5⟩ := h.node j hj
    have hpl : ∀ x, 0 < x → x < s.used → s.parent x < x := fun x h0 hx => (h.inner x h0 hx).1
    refine ⟨last, h2, anc_of_range h3 fun x h0 hx => hpl x h0 (by omega), ?_, h5⟩
    intro x hx ha
    suffices hh : j ≤ x ∧ x ≤ last from hh.2
    induction ha with
    | refl => exact ⟨Nat.le_refl _, h1⟩
    | @step b h0 ha ih =>
      have hb := hpl b h0 hx
      obtain ⟨i1, i2⟩ := ih (by omega)
      refine ⟨by omega, Nat.le_of_not_lt fun hc => ?_⟩
      rcases h4 b hc hx with h | h <;> omega
  refine ⟨h.pos, fun h => ⟨h.1, h.2.1⟩, fun h0 hi => (h.inner _ h0 hi).1, ?_, ?_, ?_⟩
  · intro i h0 hi
    have := h.inner i h0 hi
    exact ⟨by have := this.1; omega, hi, this.2⟩
  · rintro u v ⟨hu, hv, he⟩ huv
    obtain ⟨last, k1, k2, k3, k4⟩ := key u hu
    obtain ⟨m, hm, hml⟩ := k4 _ he
    have := (h.wf.iff (s.block v) v).2 ⟨hv, rfl⟩
    rw [this] at hm
    cases hm
    exact k2 v (by omega) hml
  · intro m y x hx hmy hyx ha
    have hm : m < s.used := by omega
    obtain ⟨last, k1, k2, k3, k4⟩ := key m hm
    have := k3 x hx ha
    exact k2 y hmy (by omega)

/-- everything reachable is numbered -/
theorem Finished.closed {n : Nat} {succ : Nat → List Nat} {s : Dfs} (h : Finished n succ s) {b c i : Nat} (hb : s.num b = some i) (hc : c ∈ succ b) :
    ∃ j, s.num c = some j := by
  obtain ⟨h1, h2⟩ := (h.wf.iff b i).1 hb
  obtain ⟨_, _, _, _, _, h5⟩ := h.node i h1
  obtain ⟨m, hm, _⟩ := h5 c (by rw [h2]; exact hc)
  exact ⟨m, hm⟩

theorem init_wf (n : Nat) : Wf n Dfs.init := ⟨fun b i => by simp [Dfs.init], fun i hi => by simp [Dfs.init] at hi⟩

theorem dfs_finished {n : Nat} {succ : Nat → List Nat} (hsucc : ∀ b c, b < n → c ∈ succ b → c < n) {b : Nat} (hb : b < n) {fuel : Nat} (hf : n < fuel) :
    Finished n succ (visit succ fuel b 0 Dfs.init) ∧ (visit succ fuel b 0 Dfs.init).num b = some 0 := by
  have h := visit_spec hsucc fuel b 0 Dfs.init hb (init_wf n) (by simp [Dfs.init]; omega)
  obtain ⟨h1, h2, h3⟩ := h.new rfl
  exact ⟨⟨h.wf, by simpa [Dfs.init] using h1, fun j hj => h.node j (by simp [Dfs.init]) hj, fun j h0 hj => (h.inner j (by simpa [Dfs.init] using h0) hj).2⟩, h2⟩

/-! ## Numbers and blocks -/

theorem path_snoc {E : Nat → Nat → Prop} {u v w : Nat} {l : List Nat} (h : Path E u l v) (he : E v w) : Path E u (l ++ [w]) w := by
  induction h with
  | nil v => exact .cons he (.nil w)
  | cons h1 _ ih => exact .cons h1 (ih he)

variable {n : Nat} {succ : Nat → List Nat} {s : Dfs} {r : Nat}

theorem ra_path (h : Finished n succ s) (h0 : s.block 0 = r) {a i : Nat} (hr : RA (s.Edge succ) a i) (ha : a < s.used) :
    i < s.used ∧ ∃ l, Path (fun b c => c ∈ succ b) r l (s.block i) ∧ s.block a ∉ l := by
  have hinj : ∀ i j, i < s.used → j < s.used → s.block i = s.block j → i = j := by
    intro i j hi hj hh
    have h1 := (h.wf.iff _ i).2 ⟨hi, rfl⟩
    have h2 := (h.wf.iff _ j).2 ⟨hj, hh.symm⟩
    rw [h1] at h2
    exact Option.some.inj h2
  induction hr with
  | root hne =>
    refine ⟨h.pos, [r], by rw [h0]; exact .nil r, ?_⟩
    intro hm
    rw [List.mem_singleton] at hm
    exact hne (hinj _ _ ha h.pos (hm.trans h0.symm)).symm
  | @step u v _ he hne ih =>
    obtain ⟨hu, l, hl, hal⟩ := ih
    refine ⟨he.2.1, l ++ [s.block v], path_snoc hl he.2.2, ?_⟩
    intro hm
    rcases List.mem_append.1 hm with hm | hm
    · exact hal hm
    · rw [List.mem_singleton] at hm
      exact hne (hinj _ _ ha he.2.1 hm).symm

theorem path_ra_aux (h : Finished n succ s) {a : Nat} {u v : Nat} {l : List Nat} (hp : Path (fun b c => c ∈ succ b) u l v) :
    ∀ {i}, s.num u = some i → (∀ x ∈ l, s.num x ≠ some a) → RA (s.Edge succ) a i →
      ∃ j, s.num v = some j ∧ RA (s.Edge succ) a j := by
  induction hp with
  | nil v => intro i hi _ hr; exact ⟨i, hi, hr⟩
  | @cons u c v l he hp ih =>
    intro i hi hl hr
    obtain ⟨j, hj⟩ := h.closed hi he
    obtain ⟨g1, g2⟩ := (h.wf.iff _ _).1 hi
    obtain ⟨g3, g4⟩ := (h.wf.iff _ _).1 hj
    have hra : RA (s.Edge succ) a j := by
      refine .step hr ⟨g1, g3, by rw [g2, g4]; exact he⟩ ?_
      rintro rfl
      refine hl c ?_ hj
      cases hp <;> simp
    exact ih hj (fun x hx => hl x (by simp [hx])) hra

theorem path_ra (h : Finished n succ s) (h0 : s.num r = some 0) {a : Nat} {v : Nat} {l : List Nat}
    (hp : Path (fun b c => c ∈ succ b) r l v) (hl : ∀ x ∈ l, s.num x ≠ some a) : ∃ j, s.num v = some j ∧ RA (s.Edge succ) a j := by
  have hra : RA (s.Edge succ) a 0 := .root (by
    rintro rfl
    refine hl r ?_ h0
    cases hp <;> simp)
  exact path_ra_aux h hp h0 hl hra

/-- the numbered blocks are the reachable ones -/
theorem num_iff_reachable (h : Finished n succ s) (h0 : s.num r = some 0) {b : Nat} :
    (∃ i, s.num b = some i) ↔ Reachable (fun b c => c ∈ succ b) r b := by
  constructor
  · rintro ⟨i, hi⟩
    obtain ⟨h1, h2⟩ := (h.wf.iff _ _).1 hi
    have hr : r = s.block 0 := ((h.wf.iff _ _).1 h0).2.symm
    subst h2
    clear hi
    induction i using Nat.strongRecOn with
    | ind i ih =>
      by_cases hz : i = 0
      · subst hz; rw [hr]; exact ⟨_, .nil _⟩
      · obtain ⟨g1, g2⟩ := h.inner i (by omega) h1
        obtain ⟨l, hl⟩ := ih _ g1 (by omega)
        exact ⟨_, path_snoc hl g2⟩
  · rintro ⟨l, hl⟩
    -- no block has the number `s.used`
    obtain ⟨j, hj, -⟩ := path_ra h h0 (a := s.used) hl fun x _ hx => by
      have := ((h.wf.iff _ _).1 hx).1; omega
    exact ⟨j, hj⟩

/-- dominance of blocks is dominance of numbers -/
theorem dominates_iff (h : Finished n succ s) (h0 : s.num r = some 0) {b i : Nat} (hb : s.num b = some i) (a : Nat) :
    Dominates (fun b c => c ∈ succ b) r a b ↔ ∃ j, s.num a = some j ∧ ¬ RA (s.Edge succ) j i := by
  have hr : s.block 0 = r := ((h.wf.iff _ _).1 h0).2
  obtain ⟨hi1, hi2⟩ := (h.wf.iff _ _).1 hb
  constructor
  · intro hd
    cases ha : s.num a with
    | none =>
      exfalso
      obtain ⟨l, hl⟩ := (num_iff_reachable h h0).1 ⟨i, hb⟩
      have : ∀ {u v l}, Path (fun b c => c ∈ succ b) u l v → (∃ i, s.num u = some i) → ∀ x ∈ l, ∃ i, s.num x = some i := by
        intro u v l hp
        induction hp with
        | nil v => intro hu x hx; rw [List.mem_singleton] at hx; subst hx; exact hu
        | cons he _ ih =>
          rintro ⟨i, hi⟩ x hx
          rcases List.mem_cons.1 hx with rfl | hx
          · exact ⟨i, hi⟩
          · exact ih (h.closed hi he) x hx
      obtain ⟨k, hk⟩ := this hl ⟨0, h0⟩ a (hd l hl)
      rw [ha] at hk; cases hk
    | some j =>
      refine ⟨j, rfl, fun hra => ?_⟩
      obtain ⟨hj1, hj2⟩ := (h.wf.iff _ _).1 ha
      obtain ⟨_, l, hl, hal⟩ := ra_path h hr hra hj1
      rw [hi2] at hl
      rw [hj2] at hal
      exact hal (hd l hl)
  · rintro ⟨j, hj, hra⟩ l hl
    refine Classical.byContradiction fun hal => hra ?_
    obtain ⟨k, hk, hk2⟩ := path_ra h h0 (a := j) hl fun x hx hxj => by
      have h1 := ((h.wf.iff _ _).1 hxj).2
      have h2 := ((h.wf.iff _ _).1 hj).2
      exact hal (h2.symm.trans h1 ▸ hx)
    rw [hb] at hk
    cases hk
    exact hk2

theorem isIdom_iff (h : Finished n succ s) (h0 : s.num r = some 0) {b d i j : Nat} (hb : s.num b = some i) (hd : s.num d = some j)
    (hid : Idom (s.Edge succ) j i) : IsIdom (fun b c => c ∈ succ b) r d b := by
  refine ⟨?_, (dominates_iff h h0 hb d).2 ⟨j, hd, hid.2.1⟩, ?_⟩
  · rintro rfl
    rw [hb] at hd
    exact hid.1 (Option.some.inj hd).symm
  · intro a hab ha
    obtain ⟨k, hk, hra⟩ := (dominates_iff h h0 hb a).1 ha
    refine (dominates_iff h h0 hd a).2 ⟨k, hk, hid.2.2 k ?_ hra⟩
    rintro rfl
    have h1 := ((h.wf.iff _ _).1 hk).2
    have h2 := ((h.wf.iff _ _).1 hb).2
    exact hab (h1.symm.trans h2)

end Verif.Model.Dom
