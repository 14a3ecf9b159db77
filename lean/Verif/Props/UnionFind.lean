import Verif.Model.UnionFind
import Verif.Props.PQueue
import Mathlib.Logic.Relation
import Mathlib.Data.List.Perm.Subperm
/-!
# C38: union-find maintains the generated equivalence
-/
namespace Verif.Props
open Verif.Model

/-- from `i` the parent pointers lead to the root `r` in `d` steps -/
inductive UfRoot (data : List Int) : Nat → Nat → Nat → Prop
  | root {i : Nat} {x : Int} : data[i]? = some x → x < 0 → UfRoot data i i 0
  | step {i r d : Nat} {x : Int} : data[i]? = some x → 0 ≤ x → UfRoot data x.toNat r d → UfRoot data i r (d + 1)

/-- every element leads to a root -/
structure UfOk (data : List Int) : Prop where
  total : ∀ i < data.length, ∃ r d, UfRoot data i r d

/-- two elements are in the same set -/
def UfSame (data : List Int) (i j : Nat) : Prop := ∃ r d d', UfRoot data i r d ∧ UfRoot data j r d'

theorem ufRoot_lt {data : List Int} {i r d : Nat} (h : UfRoot data i r d) : i < data.length := by
  cases h with
  | root h _ => exact lt_of_get h
  | step h _ _ => exact lt_of_get h

theorem ufRoot_unique {data : List Int} {i r d : Nat} (h : UfRoot data i r d) : ∀ {r' d'}, UfRoot data i r' d' → r = r' ∧ d = d' := by
  induction h with
  | root h hx =>
    intro r' d' h'
    cases h' with
    | root _ _ => exact ⟨rfl, rfl⟩
    | step h2 hx2 _ => rw [h] at h2; cases h2; omega
  | step h hx _ ih =>
    intro r' d' h'
    cases h' with
    | root h2 hx2 => rw [h] at h2; cases h2; omega
    | step h2 hx2 h3 =>
      rw [h] at h2; cases h2
      obtain ⟨e1, e2⟩ := ih h3
      exact ⟨e1, by rw [e2]⟩

theorem ufRoot_root {data : List Int} {i r d : Nat} (h : UfRoot data i r d) : UfRoot data r r 0 := by
  induction h with
  | root h hx => exact .root h hx
  | step _ _ _ ih => exact ih

theorem ufRoot_zero {data : List Int} {i r : Nat} (h : UfRoot data i r 0) : i = r := by
  cases h; rfl

theorem ufRoot_neg {data : List Int} {r d : Nat} (h : UfRoot data r r d) : ∃ x, data[r]? = some x ∧ x < 0 := by
  have h0 := ufRoot_root h
  cases h0 with
  | root h hx => exact ⟨_, h, hx⟩

/-- a write at `t` does not affect paths that are shorter than the one from `t` -/
theorem ufRoot_set_short {data : List Int} {t rt dt : Nat} (ht : UfRoot data t rt dt) (v : Int) {i r d : Nat} (h : UfRoot data i r d) (hd : d < dt) :
    UfRoot (data.set t v) i r d := by
  induction h with
  | root h hx =>
    refine .root (x := _) ?_ hx
    rw [List.getElem?_set, if_neg]; exact h
    rintro rfl
    have := (ufRoot_unique ht (.root h hx)).2; omega
  | step h hx h' ih =>
    refine .step (x := _) ?_ hx (ih (by omega))
    rw [List.getElem?_set, if_neg]; exact h
    rintro rfl
    have := (ufRoot_unique ht (.step h hx h')).2; omega

/-- pointing `t` directly to its root keeps all roots -/
theorem ufRoot_compress {data : List Int} {t r dt : Nat} (ht : UfRoot data t r dt) (hne : t ≠ r) {i s d : Nat} (h : UfRoot data i s d) :
    ∃ d', UfRoot (data.set t r) i s d' := by
  have hpos : 0 < dt := by
    rcases Nat.eq_zero_or_pos dt with h0 | h0
    · subst h0; exact absurd (ufRoot_zero ht) hne
    · exact h0
  have hroot : UfRoot (data.set t (r : Int)) r r 0 := ufRoot_set_short ht _ (ufRoot_root ht) hpos
  have htl := ufRoot_lt ht
  have hself : UfRoot (data.set t (r : Int)) t r 1 := by
    refine .step (x := (r : Int)) ?_ (by omega) (by rw [Int.toNat_natCast]; exact hroot)
    rw [List.getElem?_set, if_pos rfl, if_pos htl]
  induction h with
  | @root i x h hx =>
    by_cases hi : i = t
    · subst hi
      have := (ufRoot_unique ht (.root h hx)).1
      exact absurd this.symm hne
    · exact ⟨0, .root (x := x) (by rw [List.getElem?_set, if_neg (fun e => hi e.symm)]; exact h) hx⟩
  | @step i s d x h hx h' ih =>
    by_cases hi : i = t
    · subst hi
      have := (ufRoot_unique ht (.step h hx h')).1
      subst this
      exact ⟨1, hself⟩
    · obtain ⟨d', hd'⟩ := ih
      exact ⟨d' + 1, .step (x := x) (by rw [List.getElem?_set, if_neg (fun e => hi e.symm)]; exact h) hx hd'⟩

/-- same roots -/
def UfEquiv (data data' : List Int) : Prop := data'.length = data.length ∧ (∀ i r, (∃ d, UfRoot data i r d) ↔ ∃ d, UfRoot data' i r d) ∧
  ∀ r d, UfRoot data r r d → data'[r]? = data[r]?

theorem UfEquiv.refl (data : List Int) : UfEquiv data data := ⟨rfl, fun _ _ => Iff.rfl, fun _ _ _ => rfl⟩

theorem UfEquiv.trans {a b c : List Int} (h1 : UfEquiv a b) (h2 : UfEquiv b c) : UfEquiv a c :=
  ⟨h2.1.trans h1.1, fun i r => (h1.2.1 i r).trans (h2.2.1 i r), fun r d h => by
    obtain ⟨d', h'⟩ := (h1.2.1 r r).1 ⟨d, h⟩
    rw [h2.2.2 r d' h', h1.2.2 r d h]⟩

theorem ufEquiv_compress {data : List Int} (hok : UfOk data) {t r dt : Nat} (ht : UfRoot data t r dt) (hne : t ≠ r) :
    UfEquiv data (data.set t r) := by
  refine ⟨List.length_set, fun i s => ⟨fun ⟨d, h⟩ => ufRoot_compress ht hne h, fun ⟨d', h'⟩ => ?_⟩, ?_⟩
  · have hi := ufRoot_lt h'
    rw [List.length_set] at hi
    obtain ⟨s0, d0, h0⟩ := hok.total i hi
    obtain ⟨d1, h1⟩ := ufRoot_compress ht hne h0
    obtain ⟨e, _⟩ := ufRoot_unique h' h1
    subst e
    exact ⟨d0, h0⟩
  · intro s d hs
    rw [List.getElem?_set, if_neg]
    rintro rfl
    exact hne (ufRoot_unique ht hs).1.symm

theorem UfEquiv.ok {data data' : List Int} (h : UfEquiv data data') (hok : UfOk data) : UfOk data' :=
  ⟨fun i hi => by
    obtain ⟨r, d, hr⟩ := hok.total i (by rw [← h.1]; exact hi)
    obtain ⟨d', h'⟩ := (h.2.1 i r).1 ⟨d, hr⟩
    exact ⟨r, d', h'⟩⟩

theorem ufRepr_spec {data : List Int} {i r d : Nat} (h : UfRoot data i r d) : ∀ fuel, d < fuel → ufRepr data fuel i = some r := by
  induction h with
  | @root i x h hx =>
    intro fuel hf
    obtain ⟨f, rfl⟩ : ∃ f, fuel = f + 1 := ⟨fuel - 1, by omega⟩
    rw [ufRepr, h]; simp only [show ¬ x ≥ 0 from by omega, if_false]
  | step h hx _ ih =>
    intro fuel hf
    obtain ⟨f, rfl⟩ : ∃ f, fuel = f + 1 := ⟨fuel - 1, by omega⟩
    rw [ufRepr, h]; simp only [ge_iff_le, hx, if_true]
    exact ih f (by omega)

theorem ufCompress_spec : ∀ (d : Nat) {data : List Int} {t r : Nat} (fuel : Nat), UfOk data → UfRoot data t r d → d ≤ fuel →
    ∃ data', ufCompress r fuel data t = some data' ∧ UfEquiv data data' := by
  intro d
  induction d with
  | zero =>
    intro data t r fuel _ h _
    have := ufRoot_zero h
    subst this
    exact ⟨data, by cases fuel <;> simp [ufCompress], .refl _⟩
  | succ d ih =>
    intro data t r fuel hok h hf
    obtain ⟨f, rfl⟩ : ∃ f, fuel = f + 1 := ⟨fuel - 1, by omega⟩
    have hne : t ≠ r := by
      rintro rfl
      have := (ufRoot_unique h (ufRoot_root h)).2
      omega
    cases hh : h with
    | @step _ _ _ x hx h0 h' =>
      have heq := ufEquiv_compress hok h hne
      obtain ⟨data', e, h2⟩ := ih f (heq.ok hok) (ufRoot_set_short h (r : Int) h' (by omega)) (by omega)
      refine ⟨data', ?_, heq.trans h2⟩
      rw [ufCompress, if_neg hne, hx]
      simp only [show ¬ x < 0 by omega, if_false]
      exact e

/-- the nodes on a path are pairwise different, so a path is shorter than the array -/
theorem ufRoot_depth {data : List Int} {i r d : Nat} (h : UfRoot data i r d) : d < data.length := by
  have key : ∀ {i r d}, UfRoot data i r d → ∃ l : List Nat, l.length = d + 1 ∧ l.Nodup ∧ ∀ x ∈ l, x < data.length ∧ ∃ dx, UfRoot data x r dx ∧ dx ≤ d := by
    intro i r d h
    induction h with
    | @root i x h hx => exact ⟨[i], rfl, by simp, by
        intro y hy; rw [List.mem_singleton] at hy; subst hy; exact ⟨lt_of_get h, 0, .root h hx, le_refl _⟩⟩
    | @step i r d x h hx h' ih =>
      obtain ⟨l, h1, h2, h3⟩ := ih
      refine ⟨i :: l, by simp [h1], List.nodup_cons.2 ⟨fun hm => ?_, h2⟩, ?_⟩
      · obtain ⟨_, dx, hdx, hle⟩ := h3 i hm
        have := (ufRoot_unique hdx (.step h hx h')).2
        omega
      · intro y hy
        rcases List.mem_cons.1 hy with rfl | hy
        · exact ⟨lt_of_get h, d + 1, .step h hx h', le_refl _⟩
        · obtain ⟨a, dx, b, c⟩ := h3 y hy
          exact ⟨a, dx, b, by omega⟩
  obtain ⟨l, h1, h2, h3⟩ := key h
  have hsub : l ⊆ List.range data.length := fun x hx => List.mem_range.2 (h3 x hx).1
  have := (List.Nodup.subperm h2 hsub).length_le
  rw [List.length_range] at this
  omega

/-- C38: `uf_find` terminates, returns the root, and changes no root. -/
theorem uf_find_spec {data : List Int} (hok : UfOk data) {e : Nat} (he : e < data.length) :
    ∃ data' r d, ufFind data e = some (data', r) ∧ UfRoot data e r d ∧ UfEquiv data data' := by
  obtain ⟨r, d, h⟩ := hok.total e he
  have hd := ufRoot_depth h
  obtain ⟨data', e2, heq⟩ := ufCompress_spec d data.length hok h (by omega)
  refine ⟨data', r, d, ?_, h, heq⟩
  unfold ufFind
  rw [ufRepr_spec h _ hd]
  show (ufCompress r data.length data e).bind _ = _
  rw [e2]; rfl

theorem ufRepr_iff {data : List Int} (hok : UfOk data) {i r : Nat} : ufRepr data data.length i = some r ↔ ∃ d, UfRoot data i r d := by
  constructor
  · intro h
    have hi : i < data.length := by
      rcases Nat.eq_zero_or_pos data.length with h0 | h0
      · rw [h0] at h; simp [ufRepr] at h
      · obtain ⟨f, hf⟩ : ∃ f, data.length = f + 1 := ⟨data.length - 1, by omega⟩
        rw [hf, ufRepr] at h
        cases hd : data[i]? with
        | none => rw [hd] at h; simp at h
        | some d => exact lt_of_get hd
    obtain ⟨r', d, hr⟩ := hok.total i hi
    rw [ufRepr_spec hr _ (ufRoot_depth hr)] at h
    cases h
    exact ⟨d, hr⟩
  · rintro ⟨d, h⟩
    exact ufRepr_spec h _ (ufRoot_depth h)

/-- linking root `a` below root `b` -/
theorem ufRoot_link {data : List Int} {a b : Nat} {da db v : Int} (ha : data[a]? = some da) (hb : data[b]? = some db) (hda : da < 0)
    (hdb : db < 0) (hv : v < 0) (hab : a ≠ b) {i s d : Nat} (h : UfRoot data i s d) :
    ∃ d', UfRoot ((data.set a (b : Int)).set b v) i (if s = a then b else s) d' := by
  have hal := lt_of_get ha
  have hbl := lt_of_get hb
  have gb : ((data.set a (b : Int)).set b v)[b]? = some v := by
    rw [List.getElem?_set, if_pos rfl, if_pos (by rw [List.length_set]; exact hbl)]
  have ga : ((data.set a (b : Int)).set b v)[a]? = some (b : Int) := by
    rw [List.getElem?_set, if_neg (fun e => hab e.symm), List.getElem?_set, if_pos rfl, if_pos hal]
  have go : ∀ k, k ≠ a → k ≠ b → ((data.set a (b : Int)).set b v)[k]? = data[k]? := by
    intro k h1 h2
    rw [List.getElem?_set, if_neg (fun e => h2 e.symm), List.getElem?_set, if_neg (fun e => h1 e.symm)]
  have rb : UfRoot ((data.set a (b : Int)).set b v) b b 0 := .root gb hv
  induction h with
  | @root i x h hx =>
    by_cases hia : i = a
    · rw [if_pos hia, hia]
      exact ⟨1, .step ga (by omega) (by rw [Int.toNat_natCast]; exact rb)⟩
    · rw [if_neg hia]
      by_cases hib : i = b
      · rw [hib]; exact ⟨0, rb⟩
      · exact ⟨0, .root ((go i hia hib).trans h) hx⟩
  | @step i s d x h hx h' ih =>
    obtain ⟨d', hd'⟩ := ih
    have hia : i ≠ a := by rintro rfl; rw [h] at ha; cases ha; omega
    have hib : i ≠ b := by rintro rfl; rw [h] at hb; cases hb; omega
    exact ⟨d' + 1, .step ((go i hia hib).trans h) hx hd'⟩

/-- number of elements whose representative is `r` -/
def ufSize (data : List Int) (r : Nat) : Nat := (List.range data.length).countP (fun i => ufRepr data data.length i == some r)

/-- every root stores the negated number of elements of its set -/
def UfCount (data : List Int) : Prop := ∀ r x, data[r]? = some x → x < 0 → x = -(ufSize data r : Int)

theorem countP_disjoint {α : Type} (l : List α) (p q : α → Bool) (h : ∀ x ∈ l, p x = true → q x = false) :
    l.countP p + l.countP q = l.countP (fun x => p x || q x) := by
  induction l with
  | nil => rfl
  | cons a l ih =>
    have ih' := ih (fun x hx => h x (List.mem_cons_of_mem _ hx))
    have ha := h a (by simp)
    rw [List.countP_cons, List.countP_cons, List.countP_cons]
    cases hp : p a <;> cases hq : q a <;> simp_all <;> omega

theorem ufSize_add_le {data : List Int} {a b : Nat} (hab : a ≠ b) : ufSize data a + ufSize data b ≤ data.length := by
  unfold ufSize
  rw [countP_disjoint]
  · exact le_trans List.countP_le_length (by simp)
  · intro x _ h1
    rw [beq_iff_eq] at h1
    rw [h1]
    simp [hab]

/-- what a union of two different roots does -/
theorem ufLink_spec {data : List Int} (hok : UfOk data) (hc : UfCount data) {a b : Nat} {da db : Int} (ha : data[a]? = some da)
    (hb : data[b]? = some db) (hda : da < 0) (hdb : db < 0) (hab : a ≠ b) :
    UfOk ((data.set a (b : Int)).set b (da + db)) ∧ UfCount ((data.set a (b : Int)).set b (da + db)) ∧
    (∀ i s, (∃ d, UfRoot ((data.set a (b : Int)).set b (da + db)) i s d) ↔
      ∃ s0 d, UfRoot data i s0 d ∧ s = if s0 = a then b else s0) := by
  have hlen : ((data.set a (b : Int)).set b (da + db)).length = data.length := by simp
  have hv : da + db < 0 := by omega
  have link : ∀ {i s d}, UfRoot data i s d → _ := fun {i s d} h => ufRoot_link ha hb hda hdb hv hab (i := i) (s := s) (d := d) h
  have hok' : UfOk ((data.set a (b : Int)).set b (da + db)) := ⟨fun i hi => by
    rw [hlen] at hi
    obtain ⟨r, d, h⟩ := hok.total i hi
    obtain ⟨d', h'⟩ := link h
    exact ⟨_, d', h'⟩⟩
  have hiff : ∀ i s, (∃ d, UfRoot ((data.set a (b : Int)).set b (da + db)) i s d) ↔
      ∃ s0 d, UfRoot data i s0 d ∧ s = if s0 = a then b else s0 := by
    intro i s
    constructor
    · rintro ⟨d, h⟩
      have hi := ufRoot_lt h
      rw [hlen] at hi
      obtain ⟨s0, d0, h0⟩ := hok.total i hi
      obtain ⟨d1, h1⟩ := link h0
      exact ⟨s0, d0, h0, (ufRoot_unique h h1).1⟩
    · rintro ⟨s0, d, h, rfl⟩
      exact link h
  refine ⟨hok', ?_, hiff⟩
  have hal := lt_of_get ha
  have hbl := lt_of_get hb
  have repr : ∀ i s, ufRepr ((data.set a (b : Int)).set b (da + db)) data.length i = some s ↔
      ∃ s0, ufRepr data data.length i = some s0 ∧ s = if s0 = a then b else s0 := by
    intro i s
    have h1 := ufRepr_iff hok' (i := i) (r := s)
    rw [hlen] at h1
    rw [h1, hiff]
    constructor
    · rintro ⟨s0, d, h, e⟩; exact ⟨s0, (ufRepr_iff hok).2 ⟨d, h⟩, e⟩
    · rintro ⟨s0, h, e⟩
      obtain ⟨d, h⟩ := (ufRepr_iff hok).1 h
      exact ⟨s0, d, h, e⟩
  intro r x hx hneg
  by_cases hrb : r = b
  · subst hrb
    rw [List.getElem?_set, if_pos rfl, if_pos (by rw [List.length_set]; exact hbl)] at hx
    cases hx
    rw [hc a da ha hda, hc r db hb hdb]
    have : ufSize ((data.set a (r : Int)).set r (da + db)) r = ufSize data a + ufSize data r := by
      unfold ufSize
      rw [hlen, countP_disjoint]
      · apply List.countP_congr
        intro i _
        rw [Bool.or_eq_true, beq_iff_eq, beq_iff_eq, beq_iff_eq, repr]
        constructor
        · rintro ⟨s0, h, e⟩
          by_cases h0 : s0 = a
          · left; rw [h, h0]
          · right; rw [if_neg h0] at e; rw [h, ← e]
        · rintro (h | h)
          · exact ⟨a, h, by rw [if_pos rfl]⟩
          · exact ⟨r, h, by rw [if_neg (fun e => hab e.symm)]⟩
      · intro i _ h1
        rw [beq_iff_eq] at h1
        rw [h1]; simp [hab]
    have e2 := hc a da ha hda
    have e3 := hc r db hb hdb
    rw [← e2, ← e3, this]
    omega
  · have hra : r ≠ a := by
      rintro rfl
      rw [List.getElem?_set, if_neg (fun e => hrb e.symm), List.getElem?_set, if_pos rfl, if_pos hal] at hx
      cases hx; omega
    rw [List.getElem?_set, if_neg (fun e => hrb e.symm), List.getElem?_set, if_neg (fun e => hra e.symm)] at hx
    rw [hc r x hx hneg]
    congr 2
    unfold ufSize
    rw [hlen]
    apply List.countP_congr
    intro i _
    rw [beq_iff_eq, beq_iff_eq, repr]
    constructor
    · intro h; exact ⟨r, h, by rw [if_neg hra]⟩
    · rintro ⟨s0, h, e⟩
      by_cases h0 : s0 = a
      · rw [if_pos h0] at e; exact absurd e hrb
      · rw [if_neg h0] at e; rw [h, e]

/-- the full invariant, for `n` elements and the pairs `R` united so far -/
structure UfInv (n : Nat) (R : Nat → Nat → Prop) (data : List Int) : Prop where
  len : data.length = n
  ok : UfOk data
  count : UfCount data
  range : ∀ i j, R i j → i < n ∧ j < n
  same : ∀ i < n, ∀ j < n, UfSame data i j ↔ Relation.EqvGen R i j

theorem UfSame.symm {data : List Int} {i j : Nat} (h : UfSame data i j) : UfSame data j i := by
  obtain ⟨r, d, d', h1, h2⟩ := h; exact ⟨r, d', d, h2, h1⟩

theorem UfSame.trans {data : List Int} {i j k : Nat} (h : UfSame data i j) (h' : UfSame data j k) : UfSame data i k := by
  obtain ⟨r, d, d', h1, h2⟩ := h
  obtain ⟨r', d2, d2', h3, h4⟩ := h'
  obtain ⟨e, _⟩ := ufRoot_unique h2 h3
  subst e
  exact ⟨r, d, d2', h1, h4⟩

theorem uf_inv_equiv {n : Nat} {R : Nat → Nat → Prop} {data data' : List Int} (h : UfInv n R data) (he : UfEquiv data data') : UfInv n R data' := by
  have hok' := he.ok h.ok
  refine ⟨he.1.trans h.len, hok', ?_, h.range, ?_⟩
  · intro r x hx hneg
    obtain ⟨d, hd⟩ := (he.2.1 r r).2 ⟨0, .root hx hneg⟩
    have hx0 := hx
    rw [he.2.2 r d hd] at hx0
    rw [h.count r x hx0 hneg]
    congr 2
    unfold ufSize
    rw [he.1]
    apply List.countP_congr
    intro i _
    rw [beq_iff_eq, beq_iff_eq, ufRepr_iff h.ok, he.2.1, ← he.1, ufRepr_iff hok']
  · intro i hi j hj
    rw [← h.same i hi j hj]
    constructor
    · rintro ⟨r, d, d', h1, h2⟩
      obtain ⟨e1, k1⟩ := (he.2.1 i r).2 ⟨d, h1⟩
      obtain ⟨e2, k2⟩ := (he.2.1 j r).2 ⟨d', h2⟩
      exact ⟨r, e1, e2, k1, k2⟩
    · rintro ⟨r, d, d', h1, h2⟩
      obtain ⟨e1, k1⟩ := (he.2.1 i r).1 ⟨d, h1⟩
      obtain ⟨e2, k2⟩ := (he.2.1 j r).1 ⟨d', h2⟩
      exact ⟨r, e1, e2, k1, k2⟩

theorem uf_inv_link {n : Nat} {R : Nat → Nat → Prop} {data : List Int} (h : UfInv n R data) {a b : Nat} {da db : Int}
    (ha : data[a]? = some da) (hb : data[b]? = some db) (hda : da < 0) (hdb : db < 0) (hab : a ≠ b) (R' : Nat → Nat → Prop)
    (hR' : ∀ i j, R' i j ↔ R i j ∨ (i = a ∧ j = b) ∨ (i = b ∧ j = a)) :
    UfInv n R' ((data.set a (b : Int)).set b (da + db)) := by
  obtain ⟨hok', hc', hiff⟩ := ufLink_spec h.ok h.count ha hb hda hdb hab
  have hal : a < n := by rw [← h.len]; exact lt_of_get ha
  have hbl : b < n := by rw [← h.len]; exact lt_of_get hb
  have hra : UfRoot data a a 0 := .root ha hda
  have hrb : UfRoot data b b 0 := .root hb hdb
  have mono : ∀ i j, UfSame data i j → UfSame ((data.set a (b : Int)).set b (da + db)) i j := by
    rintro i j ⟨r, d, d', h1, h2⟩
    obtain ⟨e1, k1⟩ := (hiff i _).2 ⟨r, d, h1, rfl⟩
    obtain ⟨e2, k2⟩ := (hiff j _).2 ⟨r, d', h2, rfl⟩
    exact ⟨_, e1, e2, k1, k2⟩
  have hsab : UfSame ((data.set a (b : Int)).set b (da + db)) a b := by
    obtain ⟨e1, k1⟩ := (hiff a b).2 ⟨a, 0, hra, by rw [if_pos rfl]⟩
    obtain ⟨e2, k2⟩ := (hiff b b).2 ⟨b, 0, hrb, by rw [if_neg (fun e => hab e.symm)]⟩
    exact ⟨_, e1, e2, k1, k2⟩
  have hsame : ∀ i < n, ∀ j < n, UfSame data i j → Relation.EqvGen R' i j := by
    intro i hi j hj hs
    exact Relation.EqvGen.mono (fun x y hxy => (hR' x y).2 (Or.inl hxy)) _ _ ((h.same i hi j hj).1 hs)
  have gab : Relation.EqvGen R' a b := .rel _ _ ((hR' a b).2 (Or.inr (Or.inl ⟨rfl, rfl⟩)))
  refine ⟨by simp [h.len], hok', hc', ?_, ?_⟩
  · intro i j hij
    rcases (hR' i j).1 hij with h1 | ⟨rfl, rfl⟩ | ⟨rfl, rfl⟩
    · exact h.range i j h1
    · exact ⟨hal, hbl⟩
    · exact ⟨hbl, hal⟩
  · intro i hi j hj
    constructor
    · rintro ⟨r, d, d', h1, h2⟩
      obtain ⟨s1, d1, k1, e1⟩ := (hiff i r).1 ⟨d, h1⟩
      obtain ⟨s2, d2, k2, e2⟩ := (hiff j r).1 ⟨d', h2⟩
      by_cases hs : s1 = s2
      · subst hs; exact hsame i hi j hj ⟨s1, d1, d2, k1, k2⟩
      · rw [e1] at e2
        by_cases h1a : s1 = a
        · rw [if_pos h1a, if_neg (by rw [← h1a]; exact fun e => hs e.symm)] at e2
          subst h1a; subst e2
          exact ((hsame i hi s1 hal ⟨s1, d1, 0, k1, hra⟩).trans _ _ _ gab).trans _ _ _ ((hsame j hj b hbl ⟨b, d2, 0, k2, hrb⟩).symm)
        · rw [if_neg h1a] at e2
          by_cases h2a : s2 = a
          · rw [if_pos h2a] at e2
            subst h2a; subst e2
            exact ((hsame i hi s1 hbl ⟨s1, d1, 0, k1, hrb⟩).trans _ _ _ gab.symm).trans _ _ _ ((hsame j hj s2 hal ⟨s2, d2, 0, k2, hra⟩).symm)
          · rw [if_neg h2a] at e2; exact absurd e2 hs
    · intro hg
      have key : ∀ {x y}, Relation.EqvGen R' x y → x = y ∨ UfSame ((data.set a (b : Int)).set b (da + db)) x y := by
        intro x y hxy
        induction hxy with
        | rel x y hxy =>
          right
          rcases (hR' x y).1 hxy with h1 | ⟨rfl, rfl⟩ | ⟨rfl, rfl⟩
          · obtain ⟨hx, hy⟩ := h.range x y h1
            exact mono x y ((h.same x hx y hy).2 (.rel _ _ h1))
          · exact hsab
          · exact hsab.symm
        | refl x => exact Or.inl rfl
        | symm x y _ ih =>
          rcases ih with rfl | ih
          · exact Or.inl rfl
          · exact Or.inr ih.symm
        | trans x y z _ _ ih1 ih2 =>
          rcases ih1 with rfl | ih1
          · exact ih2
          · rcases ih2 with rfl | ih2
            · exact Or.inr ih1
            · exact Or.inr (ih1.trans ih2)
      rcases key hg with rfl | hs
      · obtain ⟨r, d, hr⟩ := hok'.total i (by simp [h.len]; exact hi)
        exact ⟨r, d, d, hr, hr⟩
      · exact hs

theorem uf_init_inv (n : Nat) : UfInv n (fun _ _ => False) (ufInit n) := by
  have hl : (ufInit n).length = n := List.length_replicate
  have hg : ∀ i < n, (ufInit n)[i]? = some (-1) := by
    intro i hi; unfold ufInit; rw [List.getElem?_replicate, if_pos hi]
  have hr : ∀ i < n, UfRoot (ufInit n) i i 0 := fun i hi => .root (hg i hi) (by omega)
  have hok : UfOk (ufInit n) := ⟨fun i hi => ⟨i, 0, hr i (by rw [← hl]; exact hi)⟩⟩
  refine ⟨hl, hok, ?_, fun _ _ h => h.elim, ?_⟩
  · intro r x hx hneg
    have hrn : r < n := by rw [← hl]; exact lt_of_get hx
    rw [hg r hrn] at hx; cases hx
    have : ufSize (ufInit n) r = 1 := by
      unfold ufSize
      rw [hl, List.countP_congr (q := fun i => i == r)]
      · show (List.range n).count r = 1
        exact (List.nodup_range.count (a := r)).trans (if_pos (List.mem_range.2 hrn))
      · intro i hi
        have hi' := List.mem_range.1 hi
        have := ufRepr_spec (hr i hi') n (by omega)
        rw [this]; simp
    rw [this]; rfl
  · intro i hi j hj
    constructor
    · rintro ⟨r, d, d', h1, h2⟩
      have e1 := (ufRoot_unique h1 (hr i hi)).1
      have e2 := (ufRoot_unique h2 (hr j hj)).1
      rw [e1] at e2; rw [e2]; exact .refl _
    · intro hg
      have : ∀ {x y}, Relation.EqvGen (fun _ _ : Nat => False) x y → x = y := by
        intro x y h
        induction h with
        | rel _ _ h => exact h.elim
        | refl _ => rfl
        | symm _ _ _ ih => exact ih.symm
        | trans _ _ _ _ _ a b => exact a.trans b
      have := this hg
      subst this
      exact ⟨i, 0, 0, hr i hi, hr i hi⟩

/-! ## Histories -/

/-- a call of the interface -/
inductive UfOp
  | find (e : Nat)
  | union (set1 set2 : Nat)

/-- run one call: new data and return value -/
def ufStep (data : List Int) : UfOp → Option (List Int × Nat)
  | .find e => ufFind data e
  | .union a b => ufUnion data a b

/-- run a sequence of calls -/
def ufRun : List Int → List UfOp → Option (List Int)
  | data, [] => some data
  | data, op :: ops => match ufStep data op with
    | none => none
    | some (data', _) => ufRun data' ops

/-- `(i, j)` was united by one of the calls -/
def United (ops : List UfOp) (i j : Nat) : Prop := UfOp.union i j ∈ ops ∨ UfOp.union j i ∈ ops

theorem uf_union_inv {n : Nat} {R : Nat → Nat → Prop} {data data' : List Int} {a b r : Nat} (h : UfInv n R data) (ha : a < n)
    (hu : ufUnion data a b = some (data', r)) (R' : Nat → Nat → Prop)
    (hR' : ∀ i j, R' i j ↔ R i j ∨ (i = a ∧ j = b) ∨ (i = b ∧ j = a)) :
    UfInv n R' data' ∧ (r = a ∨ r = b) := by
  unfold ufUnion at hu
  by_cases hab : a = b
  · rw [if_pos hab] at hu
    cases hu
    subst hab
    refine ⟨⟨h.len, h.ok, h.count, ?_, ?_⟩, Or.inl rfl⟩
    · intro i j hij
      rcases (hR' i j).1 hij with h1 | ⟨rfl, rfl⟩ | ⟨rfl, rfl⟩
      · exact h.range i j h1
      · exact ⟨ha, ha⟩
      · exact ⟨ha, ha⟩
    · intro i hi j hj
      rw [h.same i hi j hj]
      constructor
      · exact fun hg => Relation.EqvGen.mono (fun x y hxy => (hR' x y).2 (Or.inl hxy)) _ _ hg
      · have key : ∀ {x y}, Relation.EqvGen R' x y → Relation.EqvGen R x y := by
          intro x y hg
          induction hg with
          | rel x y hxy =>
            rcases (hR' x y).1 hxy with h1 | ⟨rfl, rfl⟩ | ⟨rfl, rfl⟩
            · exact .rel _ _ h1
            · exact .refl _
            · exact .refl _
          | refl x => exact .refl _
          | symm x y _ ih => exact ih.symm
          | trans x y z _ _ ih1 ih2 => exact ih1.trans _ _ _ ih2
        exact key
  · rw [if_neg hab] at hu
    cases ha : data[a]? with
    | none => rw [ha] at hu; simp at hu
    | some da =>
      cases hb : data[b]? with
      | none => rw [ha, hb] at hu; simp at hu
      | some db =>
        rw [ha, hb] at hu
        simp only [] at hu
        by_cases hneg : da < 0 ∧ db < 0
        · rw [if_neg (not_not.2 hneg)] at hu
          by_cases hov : da + db < -2 ^ 31
          · rw [if_pos hov] at hu; simp at hu
          · rw [if_neg hov] at hu
            by_cases hgt : da > db
            · rw [if_pos hgt] at hu
              cases hu
              exact ⟨uf_inv_link h ha hb hneg.1 hneg.2 hab R' hR', Or.inr rfl⟩
            · rw [if_neg hgt] at hu
              cases hu
              rw [Int.add_comm]
              exact ⟨uf_inv_link h hb ha hneg.2 hneg.1 (fun e => hab e.symm) R' (fun i j => by rw [hR' i j]; tauto), Or.inl rfl⟩
        · rw [if_pos hneg] at hu; simp at hu

/-- the arguments of a call are elements -/
def UfOp.inRange (n : Nat) : UfOp → Prop
  | .find e => e < n
  | .union a b => a < n ∧ b < n

theorem ufStep_inv {n : Nat} {R R' : Nat → Nat → Prop} {data data' : List Int} {op : UfOp} {r : Nat} (h : UfInv n R data)
    (hr : op.inRange n) (hs : ufStep data op = some (data', r)) (hR' : ∀ i j, R' i j ↔ R i j ∨ United [op] i j) : UfInv n R' data' := by
  cases op with
  | find e =>
    obtain ⟨d', r', d, e1, _, he⟩ := uf_find_spec h.ok (by rw [h.len]; exact hr)
    have hs' : ufFind data e = some (data', r) := hs
    rw [e1] at hs'; cases hs'
    have : R' = R := by
      funext i j
      apply propext
      rw [hR']
      simp [United]
    rw [this]
    exact uf_inv_equiv h he
  | union a b =>
    refine (uf_union_inv h hr.1 hs R' ?_).1
    intro i j
    rw [hR']
    unfold United
    simp only [List.mem_singleton, UfOp.union.injEq]
    tauto

theorem ufRun_inv {n : Nat} : ∀ (ops : List UfOp) {R R' : Nat → Nat → Prop} {data data' : List Int}, UfInv n R data →
    (∀ op ∈ ops, op.inRange n) → ufRun data ops = some data' → (∀ i j, R' i j ↔ R i j ∨ United ops i j) → UfInv n R' data' := by
  intro ops
  induction ops with
  | nil =>
    intro R R' data data' h _ hrun hR'
    rw [ufRun] at hrun; cases hrun
    have : R' = R := by
      funext i j
      apply propext
      rw [hR']
      simp [United]
    rw [this]; exact h
  | cons op ops ih =>
    intro R R' data data' h hr hrun hR'
    rw [ufRun] at hrun
    cases hs : ufStep data op with
    | none => rw [hs] at hrun; simp at hrun
    | some p =>
      obtain ⟨d1, r1⟩ := p
      rw [hs] at hrun
      have h1 := ufStep_inv (R' := fun i j => R i j ∨ United [op] i j) h (hr op (by simp)) hs (fun _ _ => Iff.rfl)
      refine ih h1 (fun o ho => hr o (List.mem_cons_of_mem _ ho)) hrun ?_
      intro i j
      rw [hR']
      unfold United
      simp only [List.mem_cons, List.not_mem_nil, or_false]
      tauto

/-- C38: after any sequence of `uf_union` and `uf_find` calls on `n` elements that runs to its end, `uf_find` terminates on every
element, and the representatives of `i` and `j` agree exactly when `i` and `j` are related by the equivalence generated by the united pairs. -/
theorem uf_equivalence (n : Nat) (ops : List UfOp) (hr : ∀ op ∈ ops, op.inRange n) (data : List Int)
    (hrun : ufRun (ufInit n) ops = some data) (i j : Nat) (hi : i < n) (hj : j < n) :
    ∃ di dj ri rj, ufFind data i = some (di, ri) ∧ ufFind data j = some (dj, rj) ∧ (ri = rj ↔ Relation.EqvGen (United ops) i j) := by
  have h := ufRun_inv ops (uf_init_inv n) hr hrun (R' := United ops) (fun i j => by simp)
  obtain ⟨di, ri, d1, e1, k1, _⟩ := uf_find_spec h.ok (e := i) (by rw [h.len]; exact hi)
  obtain ⟨dj, rj, d2, e2, k2, _⟩ := uf_find_spec h.ok (e := j) (by rw [h.len]; exact hj)
  refine ⟨di, dj, ri, rj, e1, e2, ?_⟩
  rw [← h.same i hi j hj]
  constructor
  · rintro rfl; exact ⟨ri, d1, d2, k1, k2⟩
  · rintro ⟨r, a, b, h1, h2⟩
    exact (ufRoot_unique k1 h1).1.trans (ufRoot_unique k2 h2).1.symm

/-- C38: `uf_find` does not change the representative of any element. -/
theorem uf_find_keeps (n : Nat) (ops : List UfOp) (hr : ∀ op ∈ ops, op.inRange n) (data : List Int)
    (hrun : ufRun (ufInit n) ops = some data) (e : Nat) (he : e < n) :
    ∃ data' r, ufFind data e = some (data', r) ∧ ∀ i < n, ∃ d1 d2 ri, ufFind data i = some (d1, ri) ∧ ufFind data' i = some (d2, ri) := by
  have h := ufRun_inv ops (uf_init_inv n) hr hrun (R' := United ops) (fun i j => by simp)
  obtain ⟨d', r, d, e1, _, heq⟩ := uf_find_spec h.ok (e := e) (by rw [h.len]; exact he)
  refine ⟨d', r, e1, fun i hi => ?_⟩
  obtain ⟨x1, r1, y1, f1, k1, _⟩ := uf_find_spec h.ok (e := i) (by rw [h.len]; exact hi)
  obtain ⟨x2, r2, y2, f2, k2, _⟩ := uf_find_spec (heq.ok h.ok) (e := i) (by rw [heq.1, h.len]; exact hi)
  obtain ⟨y3, k3⟩ := (heq.2.1 i r1).1 ⟨y1, k1⟩
  have := (ufRoot_unique k2 k3).1
  subst this
  exact ⟨x1, x2, r2, f1, f2⟩

/-- C38: a call never fails: `uf_find` succeeds on every element, `uf_union` on every two representatives (what `uf_find` returned);
in particular the sum of the two set sizes does not overflow an `int`.  A representative is a fixed point of `uf_find`. -/
theorem uf_progress (n : Nat) (hn : n ≤ 2 ^ 31) (ops : List UfOp) (hr : ∀ op ∈ ops, op.inRange n) (data : List Int)
    (hrun : ufRun (ufInit n) ops = some data) (i j : Nat) (hi : i < n) (hj : j < n) :
    ∃ d1 ri d2 rj d3 r, ufFind data i = some (d1, ri) ∧ ufFind d1 j = some (d2, rj) ∧ ufUnion d2 ri rj = some (d3, r) ∧ ri < n ∧ rj < n ∧ (r = ri ∨ r = rj) := by
  have h := ufRun_inv ops (uf_init_inv n) hr hrun (R' := United ops) (fun i j => by simp)
  obtain ⟨d1, ri, x1, e1, k1, q1⟩ := uf_find_spec h.ok (e := i) (by rw [h.len]; exact hi)
  have h1 := uf_inv_equiv h q1
  obtain ⟨d2, rj, x2, e2, k2, q2⟩ := uf_find_spec h1.ok (e := j) (by rw [h1.len]; exact hj)
  have h2 := uf_inv_equiv h1 q2
  obtain ⟨y1, m1⟩ := (q1.2.1 ri ri).1 ⟨0, ufRoot_root k1⟩
  obtain ⟨y2, m2⟩ := (q2.2.1 ri ri).1 ⟨y1, m1⟩
  obtain ⟨y3, m3⟩ := (q2.2.1 rj rj).1 ⟨0, ufRoot_root k2⟩
  obtain ⟨da, ga, na⟩ := ufRoot_neg m2
  obtain ⟨db, gb, nb⟩ := ufRoot_neg m3
  have hli : ri < n := by rw [← h2.len]; exact lt_of_get ga
  have hlj : rj < n := by rw [← h2.len]; exact lt_of_get gb
  have : ∃ d3 r, ufUnion d2 ri rj = some (d3, r) ∧ (r = ri ∨ r = rj) := by
    unfold ufUnion
    by_cases hab : ri = rj
    · rw [if_pos hab]; exact ⟨_, _, rfl, Or.inl rfl⟩
    · rw [if_neg hab, ga, gb]
      simp only []
      rw [if_neg (not_not.2 ⟨na, nb⟩)]
      have hov : ¬ (da + db < -2 ^ 31) := by
        have c1 := h2.count ri da ga na
        have c2 := h2.count rj db gb nb
        have c3 := ufSize_add_le (data := d2) hab
        rw [h2.len] at c3
        omega
      rw [if_neg hov]
      by_cases hgt : da > db
      · rw [if_pos hgt]; exact ⟨_, _, rfl, Or.inr rfl⟩
      · rw [if_neg hgt]; exact ⟨_, _, rfl, Or.inl rfl⟩
  obtain ⟨d3, r, e3, hrr⟩ := this
  exact ⟨d1, ri, d2, rj, d3, r, e1, e2, e3, hli, hlj, hrr⟩

/-- C38: each representative stores the negated size of its set. -/
theorem uf_sizes (n : Nat) (ops : List UfOp) (hr : ∀ op ∈ ops, op.inRange n) (data : List Int)
    (hrun : ufRun (ufInit n) ops = some data) (r : Nat) (x : Int) (hx : data[r]? = some x) (hneg : x < 0) :
    x = -((List.range n).countP (fun i => (ufFind data i).map Prod.snd == some r) : Int) := by
  have h := ufRun_inv ops (uf_init_inv n) hr hrun (R' := United ops) (fun i j => by simp)
  rw [h.count r x hx hneg]
  unfold ufSize
  rw [h.len]
  congr 2
  apply List.countP_congr
  intro i hi
  obtain ⟨x1, r1, y1, f1, k1, _⟩ := uf_find_spec h.ok (e := i) (by rw [h.len]; exact List.mem_range.1 hi)
  have := (ufRepr_iff h.ok).2 ⟨y1, k1⟩
  rw [h.len] at this
  rw [f1, this]; rfl

example : ufRun (ufInit 6) [.union 0 1, .union 2 3, .union 0 2, .find 3, .union 5 4] = some [-4, 0, 0, 0, 5, -2] := by decide

end Verif.Props
