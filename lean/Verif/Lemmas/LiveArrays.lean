import Verif.Model.LiveSets
import Verif.Lemmas.LiveQuery
/-!
# Lemmas: the arrays of the liveness sets
-/
namespace Verif.Model.LiveSets
open Verif.Model.Dom Verif.Model.LiveChk Verif.Spec

/-- the array holds the sorted entries `es` -/
structure Rep (a : Info) (es : List Entry) : Prop where
  nodes : ∃ k, a.nodes = es ++ List.replicate (k + 1) empty
  members : a.members = es.length
  sorted : es.Pairwise fun e f => e.node < f.node
  pos : ∀ e ∈ es, e.node ≠ 0

/-- the flags of a value in a list of entries -/
def valL (es : List Entry) (x : Nat) : State :=
  match es.find? (fun e => e.node == x) with
  | some e => e.flags
  | none => State.none

theorem valL_hit {l1 l2 : List Entry} {x : Nat} {s : State} (h : ∀ e ∈ l1, e.node < x) : valL (l1 ++ ⟨x, s⟩ :: l2) x = s := by
  unfold valL
  have : l1.find? (fun e => e.node == x) = none := by
    rw [List.find?_eq_none]
    intro e he
    have := h e he
    simp; omega
  rw [List.find?_append, this]
  simp

theorem valL_miss {l1 l2 : List Entry} {x : Nat} (h1 : ∀ e ∈ l1, e.node < x) (h2 : ∀ e ∈ l2, x < e.node) : valL (l1 ++ l2) x = State.none := by
  unfold valL
  have : (l1 ++ l2).find? (fun e => e.node == x) = none := by
    rw [List.find?_eq_none]
    intro e he
    rcases List.mem_append.1 he with he | he
    · have := h1 e he
      simp; omega
    · have := h2 e he
      simp; omega
  rw [this]

theorem valL_other {l1 l2 : List Entry} {x y : Nat} {s : State} (h : y ≠ x) : valL (l1 ++ ⟨x, s⟩ :: l2) y = valL (l1 ++ l2) y := by
  unfold valL
  have h' : (x == y) = false := by simpa using fun e => h e.symm
  rw [List.find?_append, List.find?_append, List.find?_cons]
  simp only [h']

theorem search_spec {es : List Entry} (hs : es.Pairwise fun e f => e.node < f.node) {rest : List Entry} {x : Nat} : ∀ (fuel lo hi : Nat), lo < hi → hi ≤ es.length →
    hi - lo ≤ fuel → (∀ i (h : i < es.length), i < lo → es[i].node < x) → (∀ i (h : i < es.length), hi ≤ i → x < es[i].node) →
    ∃ pos, search (es ++ rest) x fuel lo hi = some pos ∧ pos ≤ es.length ∧ (∀ i (h : i < es.length), i < pos → es[i].node < x) ∧
      (∀ i (h : i < es.length), pos ≤ i → x ≤ es[i].node) := by
  have hidx := List.pairwise_iff_getElem.1 hs
  intro fuel
  induction fuel with
  | zero => intro lo hi h1 _ h3; omega
  | succ fuel ih =>
    intro lo hi h1 h2 h3 h4 h5
    have hmd : lo + (hi - lo) / 2 < es.length := by omega
    have hmd' : lo + (hi - lo) / 2 < hi := by omega
    unfold search
    generalize hm : lo + (hi - lo) / 2 = md at hmd hmd'
    have hlo : lo ≤ md := by omega
    have hget : (es ++ rest)[md]? = some es[md] := by
      rw [List.getElem?_append_left hmd, List.getElem?_eq_getElem hmd]
    simp only [hget]
    by_cases c1 : es[md].node < x
    · rw [if_pos c1]
      have hlow : ∀ i (h : i < es.length), i < md + 1 → es[i].node < x := by
        intro i h hi'
        by_cases e : i = md
        · subst e; exact c1
        · have := hidx i md h hmd (by omega)
          omega
      by_cases c : md + 1 < hi
      · rw [if_pos c]
        exact ih (md + 1) hi c h2 (by omega) hlow h5
      · rw [if_neg c]
        refine ⟨md + 1, rfl, by omega, hlow, fun i h hi' => ?_⟩
        have := h5 i h (by omega)
        omega
    · rw [if_neg c1]
      by_cases c2 : x < es[md].node
      · rw [if_pos c2]
        have hhigh : ∀ i (h : i < es.length), md ≤ i → x < es[i].node := by
          intro i h hi'
          by_cases e : i = md
          · subst e; exact c2
          · have := hidx md i hmd h (by omega)
            omega
        by_cases c : lo < md
        · rw [if_pos c]
          exact ih lo md c (by omega) (by omega) h4 hhigh
        · rw [if_neg c]
          refine ⟨lo, rfl, by omega, h4, fun i h hi' => ?_⟩
          have := hhigh i h (by omega)
          omega
      · rw [if_neg c2]
        refine ⟨md, rfl, by omega, fun i h hi' => ?_, fun i h hi' => ?_⟩
        · have := hidx i md h hmd hi'
          omega
        · by_cases e : i = md
          · subst e; omega
          · have := hidx md i hmd h (by omega)
            omega

theorem bsearch_spec {a : Info} {es : List Entry} (h : Rep a es) (x : Nat) : ∃ l1 l2, es = l1 ++ l2 ∧ bsearch a x = some l1.length ∧
    (∀ e ∈ l1, e.node < x) ∧ ∀ e ∈ l2, x ≤ e.node := by
  obtain ⟨k, hk⟩ := h.nodes
  unfold bsearch
  rw [h.members, hk]
  by_cases h0 : es.length = 0
  · rw [if_pos h0]
    exact ⟨[], es, rfl, rfl, by simp, by simp [List.length_eq_zero_iff.1 h0]⟩
  · rw [if_neg h0]
    obtain ⟨pos, h1, h2, h3, h4⟩ := search_spec h.sorted (rest := List.replicate (k + 1) empty) (x := x) es.length 0 es.length (by omega) (Nat.le_refl _)
      (by omega) (fun i h hi => by omega) (fun i h hi => by omega)
    refine ⟨es.take pos, es.drop pos, (List.take_append_drop pos es).symm, ?_, ?_, ?_⟩
    · rw [h1, List.length_take, Nat.min_eq_left h2]
    · intro e he
      obtain ⟨i, hi, rfl⟩ := List.getElem_of_mem he
      rw [List.length_take] at hi
      rw [List.getElem_take]
      exact h3 i (by omega) (by omega)
    · intro e he
      obtain ⟨i, hi, rfl⟩ := List.getElem_of_mem he
      rw [List.length_drop] at hi
      rw [List.getElem_drop]
      exact h4 (pos + i) (by omega) (by omega)

theorem moveUp_spec {l1 : List Entry} (s : List Entry) : ∀ (e0 : Entry) (r : List Entry),
    ∃ hd, moveUp l1.length (l1.length + s.length) (l1 ++ s.reverse ++ e0 :: r) = some (l1 ++ hd :: (s.reverse ++ r)) := by
  induction s with
  | nil =>
    intro e0 r
    refine ⟨e0, ?_⟩
    cases hl : l1.length with
    | zero => rw [List.length_eq_zero_iff] at hl; subst hl; rfl
    | succ n =>
      simp [moveUp]
  | cons e s ih =>
    intro e0 r
    obtain ⟨hd, h⟩ := ih e (e :: r)
    refine ⟨hd, ?_⟩
    rw [List.length_cons, ← Nat.add_assoc, moveUp, if_pos (by omega)]
    have e1 : (l1 ++ (e :: s).reverse ++ e0 :: r)[l1.length + s.length]? = some e := by
      rw [List.reverse_cons, List.append_assoc, List.append_assoc, ← List.append_assoc l1]
      rw [List.getElem?_append_right (by simp)]
      simp
    have e2 : (l1 ++ (e :: s).reverse ++ e0 :: r).set (l1.length + s.length + 1) e = l1 ++ s.reverse ++ e :: e :: r := by
      rw [List.set_append_right _ _ (by simp; omega), show l1.length + s.length + 1 - (l1 ++ (e :: s).reverse).length = 0 by simp; omega]
      simp
    rw [e1]
    simp only
    rw [if_pos (by simp; omega), e2, h]
    simp

theorem moveDown_spec {r : List Entry} (l2 : List Entry) : ∀ (l1 : List Entry) (e : Entry) (fuel : Nat), l2.length ≤ fuel →
    ∃ z, moveDown (l1.length + 1 + l2.length) fuel (l1.length + 1) (l1 ++ e :: (l2 ++ r)) = some (l1 ++ l2 ++ z :: r) := by
  induction l2 with
  | nil =>
    intro l1 e fuel _
    refine ⟨e, ?_⟩
    cases fuel with
    | zero => simp [moveDown]
    | succ n => simp [moveDown]
  | cons f l2 ih =>
    intro l1 e fuel hf
    cases fuel with
    | zero => simp at hf
    | succ fuel =>
      obtain ⟨z, h⟩ := ih (l1 ++ [f]) f fuel (by simp at hf; omega)
      refine ⟨z, ?_⟩
      rw [moveDown, if_pos (by simp)]
      have e1 : (l1 ++ e :: (f :: l2 ++ r))[l1.length + 1]? = some f := by
        rw [List.getElem?_append_right (by simp)]
        simp
      have e2 : (l1 ++ e :: (f :: l2 ++ r)).set (l1.length + 1 - 1) f = (l1 ++ [f]) ++ f :: (l2 ++ r) := by
        rw [List.set_append_right _ _ (by simp)]
        simp
      rw [e1]
      simp only
      rw [e2]
      have e3 : l1.length + 1 + (f :: l2).length = (l1 ++ [f]).length + 1 + l2.length := by simp; omega
      have e4 : l1.length + 1 + 1 = (l1 ++ [f]).length + 1 := by simp
      rw [e3, e4, h]
      simp

theorem sorted_insert {l1 l2 : List Entry} {x : Nat} {s : State} (hs : (l1 ++ l2).Pairwise fun e f => e.node < f.node)
    (h1 : ∀ e ∈ l1, e.node < x) (h2 : ∀ e ∈ l2, x < e.node) : (l1 ++ ⟨x, s⟩ :: l2).Pairwise fun e f => e.node < f.node := by
  rw [List.pairwise_append] at hs ⊢
  refine ⟨hs.1, List.pairwise_cons.2 ⟨h2, hs.2.1⟩, fun a ha b hb => ?_⟩
  rcases List.mem_cons.1 hb with rfl | hb
  · exact h1 a ha
  · exact hs.2.2 a ha b hb

/-- either there is an entry of the value, or a place for it -/
theorem find_cases {a : Info} {es : List Entry} (h : Rep a es) {x : Nat} : ∃ l1 l2, bsearch a x = some l1.length ∧
    (∀ e ∈ l1, e.node < x) ∧ (∀ e ∈ l2, x < e.node) ∧ (es = l1 ++ l2 ∨ ∃ s, es = l1 ++ ⟨x, s⟩ :: l2) := by
  obtain ⟨l1, l2, e, h1, h2, h3⟩ := bsearch_spec h x
  cases l2 with
  | nil => exact ⟨l1, [], h1, h2, by simp, Or.inl e⟩
  | cons f l2 =>
    have hp := h.sorted
    rw [e, List.pairwise_append] at hp
    have hp := List.pairwise_cons.1 hp.2.1
    by_cases c : f.node = x
    · refine ⟨l1, l2, h1, h2, fun g hg => c ▸ hp.1 g hg, Or.inr ⟨f.flags, ?_⟩⟩
      rw [e, ← c]
    · refine ⟨l1, f :: l2, h1, h2, fun g hg => ?_, Or.inl e⟩
      have := h3 f (by simp)
      rcases List.mem_cons.1 hg with rfl | hg
      · omega
      · have := hp.1 g hg
        omega

theorem getOrSet_spec {a : Info} {es : List Entry} (h : Rep a es) {x : Nat} (hx : x ≠ 0) : ∃ a' l1 l2,
    getOrSet a x = some (a', l1.length) ∧ Rep a' (l1 ++ ⟨x, valL es x⟩ :: l2) ∧ (∀ e ∈ l1, e.node < x) ∧ (∀ e ∈ l2, x < e.node) ∧
    ∀ y, y ≠ x → valL (l1 ++ l2) y = valL es y := by
  obtain ⟨l1, l2, h1, h2, h3, hc⟩ := find_cases h (x := x)
  obtain ⟨k, hk⟩ := h.nodes
  unfold getOrSet
  rw [h1]
  simp only
  rcases hc with e | ⟨s, e⟩
  · have hn : a.nodes = l1 ++ (l2 ++ List.replicate (k + 1) empty) := by rw [hk, e, List.append_assoc]
    have hget : ∃ f, a.nodes[l1.length]? = some f ∧ f.node ≠ x := by
      rw [hn, List.getElem?_append_right (Nat.le_refl _), Nat.sub_self]
      cases l2 with
      | nil => exact ⟨empty, by simp [List.replicate_succ], fun hh => hx hh.symm⟩
      | cons f l2 =>
        refine ⟨f, by simp, ?_⟩
        have := h3 f (by simp)
        omega
    obtain ⟨f, hf1, hf2⟩ := hget
    rw [hf1]
    simp only
    rw [if_neg hf2]
    obtain ⟨j, hj⟩ : ∃ j, (if a.nodes.length ≤ a.members + 1 then a.nodes ++ List.replicate a.nodes.length empty else a.nodes) =
        l1 ++ l2 ++ empty :: List.replicate (j + 1) empty := by
      rw [h.members]
      by_cases c : a.nodes.length ≤ es.length + 1
      · rw [if_pos c]
        rw [hk] at c ⊢
        have hk0 : k = 0 := by simp at c; omega
        subst hk0
        refine ⟨es.length, ?_⟩
        rw [List.length_append, List.length_replicate, ← List.replicate_succ, List.append_assoc, List.replicate_append_replicate, e]
        congr 2
        omega
      · rw [if_neg c]
        rw [hk] at c ⊢
        cases k with
        | zero => simp at c
        | succ k => exact ⟨k, by rw [e, List.replicate_succ]⟩
    rw [hj]
    obtain ⟨hd, hmv⟩ := moveUp_spec (l1 := l1) l2.reverse empty (List.replicate (j + 1) empty)
    rw [List.reverse_reverse, List.length_reverse] at hmv
    rw [h.members, e, List.length_append, hmv]
    simp only
    rw [if_pos (by simp)]
    have hset : (l1 ++ hd :: (l2 ++ List.replicate (j + 1) empty)).set l1.length ⟨x, State.none⟩ =
        (l1 ++ ⟨x, State.none⟩ :: l2) ++ List.replicate (j + 1) empty := by
      rw [List.set_append_right _ _ (Nat.le_refl _)]
      simp
    rw [hset, ← e]
    have hv : valL es x = State.none := by rw [e]; exact valL_miss h2 h3
    refine ⟨_, l1, l2, rfl, ⟨⟨j, by rw [hv]⟩, ?_, ?_, ?_⟩, h2, h3, fun y _ => by rw [e]⟩
    · simp; omega
    · exact sorted_insert (e ▸ h.sorted) h2 h3
    · intro g hg
      rcases List.mem_append.1 hg with hg | hg
      · exact h.pos g (e ▸ List.mem_append_left _ hg)
      · rcases List.mem_cons.1 hg with rfl | hg
        · exact hx
        · exact h.pos g (e ▸ List.mem_append_right _ hg)
  · have hget : a.nodes[l1.length]? = some ⟨x, s⟩ := by
      rw [hk, e, List.append_assoc, List.getElem?_append_right (Nat.le_refl _), Nat.sub_self]
      simp
    rw [hget]
    simp only
    rw [if_pos trivial]
    refine ⟨a, l1, l2, rfl, ?_, h2, h3, fun y hy => ?_⟩
    · rw [e, valL_hit h2, ← e]; exact h
    · rw [e, valL_other hy]

theorem rep_flags {a : Info} {l1 l2 : List Entry} {x : Nat} {s t : State} (h : Rep a (l1 ++ ⟨x, s⟩ :: l2)) :
    a.nodes[l1.length]? = some ⟨x, s⟩ ∧ Rep { a with nodes := a.nodes.set l1.length ⟨x, t⟩ } (l1 ++ ⟨x, t⟩ :: l2) := by
  obtain ⟨k, hk⟩ := h.nodes
  refine ⟨?_, ⟨⟨k, ?_⟩, ?_, ?_, ?_⟩⟩
  · rw [hk, List.append_assoc, List.getElem?_append_right (Nat.le_refl _), Nat.sub_self]
    simp
  · rw [hk, List.append_assoc, List.set_append_right _ _ (Nat.le_refl _)]
    simp
  · rw [h.members]; simp
  · have hs := h.sorted
    rw [List.pairwise_append] at hs ⊢
    refine ⟨hs.1, ?_, ?_⟩
    · have := List.pairwise_cons.1 hs.2.1
      exact List.pairwise_cons.2 ⟨this.1, this.2⟩
    · intro a ha b hb
      rcases List.mem_cons.1 hb with rfl | hb
      · exact hs.2.2 a ha ⟨x, s⟩ (by simp)
      · exact hs.2.2 a ha b (by simp [hb])
  · intro g hg
    rcases List.mem_append.1 hg with hg | hg
    · exact h.pos g (by simp [hg])
    · rcases List.mem_cons.1 hg with rfl | hg
      · exact h.pos ⟨x, s⟩ (by simp)
      · exact h.pos g (by simp [hg])

theorem rep_init : Rep ⟨0, List.replicate stdSize empty⟩ [] := ⟨⟨62, rfl⟩, rfl, by simp, by simp⟩

/-! ## The map -/

/-- all arrays are in order -/
def Wf (m : Map) : Prop := ∀ b a, m b = some a → ∃ es, Rep a es

/-- the flags of a value at a block -/
def val (m : Map) (b x : Nat) : State :=
  match m b with
  | none => State.none
  | some a => valL a.nodes x

theorem valL_rep {a : Info} {es : List Entry} (h : Rep a es) {x : Nat} (hx : x ≠ 0) : valL a.nodes x = valL es x := by
  obtain ⟨k, hk⟩ := h.nodes
  unfold valL
  rw [hk, List.find?_append]
  have : (List.replicate (k + 1) empty).find? (fun e => e.node == x) = none := by
    rw [List.find?_eq_none]
    intro e he
    rw [List.eq_of_mem_replicate he]
    simp [Ne.symm hx]
  rw [this, Option.or_none]

theorem get_spec {m : Map} (h : Wf m) {b x : Nat} (hx : x ≠ 0) : liveState m b x = some (val m b x) := by
  unfold liveState get val
  cases hb : m b with
  | none => rfl
  | some a =>
    obtain ⟨es, hr⟩ := h b a hb
    obtain ⟨l1, l2, h1, h2, h3, hc⟩ := find_cases hr (x := x)
    obtain ⟨k, hk⟩ := hr.nodes
    simp only [h1]
    rw [valL_rep hr hx]
    rcases hc with e | ⟨s, e⟩
    · have hget : ∃ f, a.nodes[l1.length]? = some f ∧ f.node ≠ x := by
        rw [hk, e, List.append_assoc, List.getElem?_append_right (Nat.le_refl _), Nat.sub_self]
        cases l2 with
        | nil => exact ⟨empty, by simp [List.replicate_succ], fun hh => hx hh.symm⟩
        | cons f l2 =>
          refine ⟨f, by simp, ?_⟩
          have := h3 f (by simp)
          omega
      obtain ⟨f, hf1, hf2⟩ := hget
      rw [hf1, e, valL_miss h2 h3]
      simp [hf2]
    · have hget : a.nodes[l1.length]? = some ⟨x, s⟩ := by
        rw [hk, e, List.append_assoc, List.getElem?_append_right (Nat.le_refl _), Nat.sub_self]
        simp
      rw [hget, e, valL_hit h2]
      simp

theorem mark_spec {m : Map} (h : Wf m) {b x : Nat} (hx : x ≠ 0) (s : State) : ∃ m', mark m b x s = some (val m b x, m') ∧ Wf m' ∧
    val m' b x = or (val m b x) s ∧ ∀ c y, y ≠ 0 → (c ≠ b ∨ y ≠ x) → val m' c y = val m c y := by
  have key : ∀ a es, Rep a es → (∀ y, y ≠ 0 → valL es y = val m b y) → ∃ m', (match getOrSet a x with
      | none => none
      | some (a, pos) =>
        match a.nodes[pos]? with
        | none => none
        | some e => some (e.flags, set m b (some { a with nodes := a.nodes.set pos { e with flags := or e.flags s } }))) = some (val m b x, m') ∧ Wf m' ∧
      val m' b x = or (val m b x) s ∧ ∀ c y, y ≠ 0 → (c ≠ b ∨ y ≠ x) → val m' c y = val m c y := by
    intro a es hr hv
    obtain ⟨a', l1, l2, h1, h2, h3, h4, h5⟩ := getOrSet_spec hr hx
    obtain ⟨r1, r2⟩ := rep_flags h2 (t := or (valL es x) s)
    rw [h1]
    simp only [r1]
    rw [hv x hx] at r2 ⊢
    refine ⟨_, rfl, ?_, ?_, ?_⟩
    · intro c a'' hc
      by_cases e : c = b
      · subst e
        rw [set_same] at hc
        cases hc
        exact ⟨_, r2⟩
      · rw [set_other _ _ e] at hc
        exact h c a'' hc
    · have e1 := valL_rep r2 hx
      rw [valL_hit h3] at e1
      refine Eq.trans ?_ e1
      simp only [val, set_same]
    · intro c y hy hcy
      by_cases e : c = b
      · subst e
        have hyx : y ≠ x := hcy.resolve_left fun hh => hh rfl
        rw [← hv y hy, ← h5 y hyx]
        have e1 := valL_rep r2 hy
        rw [valL_other hyx] at e1
        refine Eq.trans ?_ e1
        simp only [val, set_same]
      · simp only [val, set_other _ _ e]
  unfold mark
  cases hb : m b with
  | none =>
    refine key _ [] rep_init fun y _ => ?_
    simp [val, hb, valL]
  | some a =>
    obtain ⟨es, hr⟩ := h b a hb
    refine key a es hr fun y hy => ?_
    simp only [val, hb]
    rw [valL_rep hr hy]

theorem removeAt_spec {m : Map} (h : Wf m) {b x : Nat} (hx : x ≠ 0) : ∃ m', removeAt x b m = some m' ∧ Wf m' ∧ val m' b x = State.none ∧
    ∀ c y, y ≠ 0 → (c ≠ b ∨ y ≠ x) → val m' c y = val m c y := by
  unfold removeAt
  cases hb : m b with
  | none => exact ⟨m, rfl, h, by simp [val, hb], fun _ _ _ _ => rfl⟩
  | some a =>
    obtain ⟨es, hr⟩ := h b a hb
    obtain ⟨l1, l2, h1, h2, h3, hc⟩ := find_cases hr (x := x)
    obtain ⟨k, hk⟩ := hr.nodes
    have fin : ∀ a' es', Rep a' es' → valL es' x = State.none → (∀ y, y ≠ 0 → y ≠ x → valL es' y = valL es y) →
        Wf (set m b (some a')) ∧ val (set m b (some a')) b x = State.none ∧
          ∀ c y, y ≠ 0 → (c ≠ b ∨ y ≠ x) → val (set m b (some a')) c y = val m c y := by
      intro a' es' hr' hv1 hv2
      refine ⟨?_, ?_, ?_⟩
      · intro c a'' hc
        by_cases e : c = b
        · subst e
          rw [set_same] at hc
          cases hc
          exact ⟨_, hr'⟩
        · rw [set_other _ _ e] at hc
          exact h c a'' hc
      · simp only [val, set_same]
        rw [valL_rep hr' hx, hv1]
      · intro c y hy hcy
        by_cases e : c = b
        · subst e
          have hyx : y ≠ x := hcy.resolve_left fun hh => hh rfl
          simp only [val, set_same, hb]
          rw [valL_rep hr' hy, valL_rep hr hy, hv2 y hy hyx]
        · simp only [val, set_other _ _ e]
    rcases hc with e | ⟨s, e⟩
    · have hget : ∃ f, a.nodes[l1.length]? = some f ∧ f.node ≠ x := by
        rw [hk, e, List.append_assoc, List.getElem?_append_right (Nat.le_refl _), Nat.sub_self]
        cases l2 with
        | nil => exact ⟨empty, by simp [List.replicate_succ], fun hh => hx hh.symm⟩
        | cons f l2 =>
          refine ⟨f, by simp, ?_⟩
          have := h3 f (by simp)
          omega
      obtain ⟨f, hf1, hf2⟩ := hget
      have hrm : removeInfo a x = some a := by
        unfold removeInfo
        rw [h1]
        simp only [hf1]
        rw [if_pos hf2]
      obtain ⟨f1, f2, f3⟩ := fin a es hr (by rw [e]; exact valL_miss h2 h3) fun _ _ _ => rfl
      exact ⟨_, by simp [hrm], f1, f2, f3⟩
    · have hn : a.nodes = l1 ++ ⟨x, s⟩ :: (l2 ++ List.replicate (k + 1) empty) := by rw [hk, e]; simp
      have hget : a.nodes[l1.length]? = some ⟨x, s⟩ := by
        rw [hn, List.getElem?_append_right (Nat.le_refl _), Nat.sub_self]
        simp
      have hmem : a.members = l1.length + 1 + l2.length := by rw [hr.members, e]; simp; omega
      obtain ⟨z, hz⟩ := moveDown_spec (r := List.replicate (k + 1) empty) l2 l1 ⟨x, s⟩ a.members (by omega)
      have hset : (l1 ++ l2 ++ z :: List.replicate (k + 1) empty).set (a.members - 1) empty = (l1 ++ l2) ++ List.replicate (k + 2) empty := by
        rw [List.set_append_right _ _ (by simp; omega), show a.members - 1 - (l1 ++ l2).length = 0 by simp; omega]
        simp [List.replicate_succ]
      have hrm : removeInfo a x = some ⟨a.members - 1, (l1 ++ l2) ++ List.replicate (k + 2) empty⟩ := by
        unfold removeInfo
        rw [h1]
        simp only [hget]
        rw [if_neg (fun hh => hh rfl)]
        rw [hn]
        rw [← hmem] at hz
        rw [hz]
        simp only
        rw [if_pos (by simp; omega), hset]
      have hr' : Rep ⟨a.members - 1, (l1 ++ l2) ++ List.replicate (k + 2) empty⟩ (l1 ++ l2) := by
        refine ⟨⟨k + 1, rfl⟩, by simp; omega, ?_, ?_⟩
        · have := hr.sorted
          rw [e] at this
          exact this.sublist (List.Sublist.append (List.Sublist.refl _) (List.sublist_cons_self _ _))
        · intro g hg
          refine hr.pos g ?_
          rw [e]
          rcases List.mem_append.1 hg with hg | hg
          · exact List.mem_append_left _ hg
          · exact List.mem_append_right _ (List.mem_cons_of_mem _ hg)
      obtain ⟨f1, f2, f3⟩ := fin _ _ hr' (valL_miss h2 h3) fun y _ hyx => by rw [e, valL_other hyx]
      exact ⟨_, by simp [hrm], f1, f2, f3⟩

end Verif.Model.LiveSets
