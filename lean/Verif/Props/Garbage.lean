import Verif.Model.Garbage
/-!
# Removal of unused entities (C125)
-/
namespace Verif.Props.Garbage

open Verif.Spec.Garbage Verif.Model.Garbage Relation

/-- what is visited next is what is mentioned -/
theorem next_mentions (p : Prog) (i j : Item) : j ∈ next p i ↔ Mentions p i j := by
  rcases i with e | n
  · show j ∈ entityNext p e ↔ _
    unfold entityNext
    constructor
    · intro h
      rcases hk : p.kind e with l | n | t | _
      · rw [hk] at h
        obtain ⟨n, hn, rfl⟩ := List.mem_map.1 h
        exact .const hk hn
      · rcases n with _ | n
        · rw [hk] at h; exact absurd h List.not_mem_nil
        · rw [hk] at h
          rw [List.mem_singleton.1 h]
          exact .graph hk
      · rw [hk] at h
        rw [List.mem_singleton.1 h]
        exact .aliased hk
      · rw [hk] at h; exact absurd h List.not_mem_nil
    · intro h
      cases h with
      | const hk hn => rw [hk]; exact List.mem_map.2 ⟨_, hn, rfl⟩
      | graph hk => rw [hk]; exact List.mem_singleton.2 rfl
      | aliased hk => rw [hk]; exact List.mem_singleton.2 rfl
  · show j ∈ nodeNext p n ↔ _
    unfold nodeNext
    have hord : ∀ l m, m ∈ order l ↔ m ∈ l := by
      intro l m
      rcases l with _ | ⟨b, l⟩
      · rfl
      · unfold order
        rw [List.mem_cons, List.mem_cons, List.mem_reverse]
    rw [List.mem_append, List.mem_map, List.mem_map]
    constructor
    · rintro (⟨e, he, rfl⟩ | ⟨m, hm, rfl⟩)
      · exact .entity (Option.mem_toList.1 he)
      · exact .operand ((hord _ _).1 hm)
    · intro h
      cases h with
      | operand hm => exact .inr ⟨_, (hord _ _).2 hm, rfl⟩
      | entity ha => exact .inl ⟨_, Option.mem_toList.2 ha, rfl⟩

/-- what a visit of `i` does to the marks: all that is mentioned by a new mark is marked, and new marks are mentioned -/
structure Good (p : Prog) (is v v' : List Item) : Prop where
  keep : ∀ x ∈ v, x ∈ v'
  here : ∀ i ∈ is, i ∈ v'
  closed : ∀ x ∈ v', x ∉ v → ∀ y, Mentions p x y → y ∈ v'
  from' : ∀ x ∈ v', x ∉ v → ∃ i ∈ is, ReflTransGen (Mentions p) i x

theorem each_good (p : Prog) (f : Item → List Item → Option (List Item)) (hf : ∀ i v v', f i v = some v' → Good p [i] v v') :
    ∀ l v v', each f l v = some v' → Good p l v v' := by
  intro l
  induction l with
  | nil =>
    intro v v' h
    cases h
    exact ⟨fun _ h => h, fun _ h => absurd h List.not_mem_nil, fun x h1 h2 => absurd h1 h2, fun x h1 h2 => absurd h1 h2⟩
  | cons i l ih =>
    intro v v' h
    rw [each] at h
    rcases hi : f i v with _ | v1
    · rw [hi] at h; cases h
    · rw [hi] at h
      have g1 := hf i v v1 hi
      have g2 := ih v1 v' h
      refine ⟨fun x hx => g2.keep x (g1.keep x hx), fun x hx => ?_, fun x hx hn y hy => ?_, fun x hx hn => ?_⟩
      · rcases List.mem_cons.1 hx with e | e
        · rw [e]; exact g2.keep i (g1.here i List.mem_cons_self)
        · exact g2.here x e
      · by_cases h1 : x ∈ v1
        · exact g2.keep y (g1.closed x h1 hn y hy)
        · exact g2.closed x hx h1 y hy
      · by_cases h1 : x ∈ v1
        · obtain ⟨j, hj, hr⟩ := g1.from' x h1 hn
          rw [List.mem_singleton.1 hj] at hr
          exact ⟨i, List.mem_cons_self, hr⟩
        · obtain ⟨j, hj, hr⟩ := g2.from' x hx h1
          exact ⟨j, List.mem_cons_of_mem _ hj, hr⟩

theorem visit_good (p : Prog) : ∀ fuel i v v', visit p fuel i v = some v' → Good p [i] v v' := by
  intro fuel
  induction fuel with
  | zero => intro i v v' h; cases h
  | succ fuel ih =>
    intro i v v' h
    rw [visit] at h
    by_cases hi : i ∈ v
    · rw [if_pos hi] at h
      cases h
      exact ⟨fun _ h => h, fun x hx => (by rw [List.mem_singleton.1 hx]; exact hi), fun x h1 h2 => absurd h1 h2, fun x h1 h2 => absurd h1 h2⟩
    · rw [if_neg hi] at h
      have g := each_good p (visit p fuel) ih _ _ _ h
      have hiv := g.keep i List.mem_cons_self
      refine ⟨fun x hx => g.keep x (List.mem_cons_of_mem _ hx), fun x hx => (by rw [List.mem_singleton.1 hx]; exact hiv), fun x hx hn y hy => ?_, fun x hx hn => ?_⟩
      · by_cases he : x = i
        · subst he; exact g.here y ((next_mentions p x y).2 hy)
        · exact g.closed x hx (fun h => (List.mem_cons.1 h).elim he hn) y hy
      · by_cases he : x = i
        · subst he; exact ⟨x, List.mem_singleton.2 rfl, .refl⟩
        · obtain ⟨j, hj, hr⟩ := g.from' x hx (fun h => (List.mem_cons.1 h).elim he hn)
          exact ⟨i, List.mem_singleton.2 rfl, .head ((next_mentions p i j).1 hj) hr⟩

/-- **The marks are what is in use.** -/
theorem mark_iff (p : Prog) (fuel : Nat) (v : List Item) (h : mark p fuel = some v) (i : Item) : i ∈ v ↔ InUse p i := by
  have g := each_good p _ (visit_good p fuel) _ _ _ h
  have hroot : ∀ j, j ∈ p.segments.flatMap (segmentRoots p) ↔ ∃ s ∈ p.segments, ∃ r ∈ s, p.root r = true ∧ j = .ent r := by
    intro j
    simp only [List.mem_flatMap, segmentRoots, List.mem_map, List.mem_filter]
    constructor
    · rintro ⟨s, hs, r, ⟨h1, h2⟩, rfl⟩; exact ⟨s, hs, r, h1, h2, rfl⟩
    · rintro ⟨s, hs, r, h1, h2, rfl⟩; exact ⟨s, hs, r, ⟨h1, h2⟩, rfl⟩
  constructor
  · intro hi
    obtain ⟨j, hj, hr⟩ := g.from' i hi List.not_mem_nil
    obtain ⟨s, hs, r, h1, h2, rfl⟩ := (hroot j).1 hj
    exact ⟨s, hs, r, h1, h2, hr⟩
  · rintro ⟨s, hs, r, h1, h2, hr⟩
    induction hr with
    | refl => exact g.here _ ((hroot _).2 ⟨s, hs, r, h1, h2, rfl⟩)
    | tail _ hm ih => exact g.closed _ ih List.not_mem_nil _ hm

/-- **Exactly the unused entities are removed** from every segment; the others stay in their order. -/
theorem collect_segments (fuel : Nat) (p q : Prog) (h : collect fuel p = some q) (k : Nat) (s : List Nat) (hs : p.segments[k]? = some s) :
    ∃ s', q.segments[k]? = some s' ∧ s'.Sublist s ∧ ∀ e, e ∈ s' ↔ e ∈ s ∧ InUse p (.ent e) := by
  unfold collect at h
  rcases hm : mark p fuel with _ | v
  · rw [hm] at h; cases h
  · rw [hm] at h
    cases h
    refine ⟨_, by rw [List.getElem?_map, hs]; rfl, List.filter_sublist, fun e => ?_⟩
    rw [List.mem_filter, decide_eq_true_eq, mark_iff p fuel v hm]

/-- **Exactly the graphs of unused methods are freed.** -/
theorem collect_graphs (fuel : Nat) (p q : Prog) (h : collect fuel p = some q) (e : Nat) : e ∈ q.graphs ↔ e ∈ p.graphs ∧ InUse p (.ent e) := by
  unfold collect at h
  rcases hm : mark p fuel with _ | v
  · rw [hm] at h; cases h
  · rw [hm] at h
    cases h
    rw [List.mem_filter, decide_eq_true_eq, mark_iff p fuel v hm]

/-- a segment of the result -/
theorem segment_of (fuel : Nat) (p q : Prog) (h : collect fuel p = some q) (s' : List Nat) (hs : s' ∈ q.segments) : ∃ s ∈ p.segments, ∀ e, e ∈ s' ↔ e ∈ s ∧ InUse p (.ent e) := by
  unfold collect at h
  rcases hm : mark p fuel with _ | v
  · rw [hm] at h; cases h
  · rw [hm] at h
    cases h
    obtain ⟨s, h1, rfl⟩ := List.mem_map.1 hs
    refine ⟨s, h1, fun e => ?_⟩
    rw [List.mem_filter, decide_eq_true_eq, mark_iff p fuel v hm]

theorem same_graph (fuel : Nat) (p q : Prog) (h : collect fuel p = some q) : q.kind = p.kind ∧ q.ins = p.ins ∧ q.attr = p.attr ∧ q.root = p.root := by
  unfold collect at h
  rcases hm : mark p fuel with _ | v
  · rw [hm] at h; cases h
  · rw [hm] at h
    cases h
    exact ⟨rfl, rfl, rfl, rfl⟩

theorem mentions_same (p q : Prog) (h : q.kind = p.kind ∧ q.ins = p.ins ∧ q.attr = p.attr ∧ q.root = p.root) (i j : Item) (hm : Mentions p i j) : Mentions q i j := by
  obtain ⟨h1, h2, h3, _⟩ := h
  cases hm with
  | const hk hn => exact .const (by rw [h1]; exact hk) hn
  | graph hk => exact .graph (by rw [h1]; exact hk)
  | aliased hk => exact .aliased (by rw [h1]; exact hk)
  | operand ho => exact .operand (by rw [h2]; exact ho)
  | entity ha => exact .entity (by rw [h3]; exact ha)

/-- the same is in use as before -/
theorem inUse_same (fuel : Nat) (p q : Prog) (h : collect fuel p = some q) (i : Item) : InUse q i ↔ InUse p i := by
  have hsame := same_graph fuel p q h
  constructor
  · rintro ⟨s', hs', r, hr, hroot, hreach⟩
    obtain ⟨s, hs, he⟩ := segment_of fuel p q h s' hs'
    refine ⟨s, hs, r, ((he r).1 hr).1, by rw [← hsame.2.2.2]; exact hroot, ReflTransGen.mono (fun a b hab => ?_) _ _ hreach⟩
    exact mentions_same q p ⟨hsame.1.symm, hsame.2.1.symm, hsame.2.2.1.symm, hsame.2.2.2.symm⟩ a b hab
  · rintro ⟨s, hs, r, hr, hroot, hreach⟩
    obtain ⟨k, hk, hsk⟩ := List.getElem_of_mem hs
    obtain ⟨s', a1, _, a2⟩ := collect_segments fuel p q h k s (by rw [List.getElem?_eq_getElem hk, hsk])
    exact ⟨s', List.mem_of_getElem? a1, r, (a2 r).2 ⟨hr, s, hs, r, hr, hroot, .refl⟩, by rw [hsame.2.2.2]; exact hroot,
      ReflTransGen.mono (fun a b hab => mentions_same p q hsame a b hab) _ _ hreach⟩

/-- **Nothing dangles**: what a remaining entity mentions, directly or through nodes and other entities, remains if it was there. -/
theorem nothing_dangles (fuel : Nat) (p q : Prog) (h : collect fuel p = some q) (s' : List Nat) (hs' : s' ∈ q.segments) (e : Nat) (he : e ∈ s') (d : Nat)
    (hd : ReflTransGen (Mentions q) (.ent e) (.ent d)) :
    (d ∈ p.graphs → d ∈ q.graphs) ∧ ∀ (k : Nat) (t : List Nat), p.segments[k]? = some t → d ∈ t → ∃ t', q.segments[k]? = some t' ∧ d ∈ t' := by
  obtain ⟨s, hs, hiff⟩ := segment_of fuel p q h s' hs'
  have hsame := same_graph fuel p q h
  have hu : InUse p (.ent d) := by
    obtain ⟨_, s0, h0, r, h1, h2, h3⟩ := (hiff e).1 he
    exact ⟨s0, h0, r, h1, h2, h3.trans (ReflTransGen.mono (fun a b hab => mentions_same q p ⟨hsame.1.symm, hsame.2.1.symm, hsame.2.2.1.symm, hsame.2.2.2.symm⟩ a b hab) _ _ hd)⟩
  refine ⟨fun hg => (collect_graphs fuel p q h d).2 ⟨hg, hu⟩, fun k t ht hdt => ?_⟩
  obtain ⟨t', a1, _, a2⟩ := collect_segments fuel p q h k t ht
  exact ⟨t', a1, (a2 d).2 ⟨hdt, hu⟩⟩

/-- **A second run removes nothing.** -/
theorem collect_again (fuel fuel' : Nat) (p q r : Prog) (h : collect fuel p = some q) (h' : collect fuel' q = some r) : r = q := by
  have hu := inUse_same fuel p q h
  have hseg := segment_of fuel p q h
  have hgr := collect_graphs fuel p q h
  unfold collect at h'
  rcases hm : mark q fuel' with _ | v
  · rw [hm] at h'; cases h'
  · rw [hm] at h'
    cases h'
    have hv := mark_iff q fuel' v hm
    have e1 : q.graphs.filter (fun e => decide (.ent e ∈ v)) = q.graphs :=
      List.filter_eq_self.2 fun e he => decide_eq_true ((hv _).2 ((hu _).2 ((hgr e).1 he).2))
    have e2 : q.segments.map (fun s => s.filter fun e => decide (.ent e ∈ v)) = q.segments := by
      rw [List.map_congr_left (g := id), List.map_id]
      intro s hs
      obtain ⟨s0, _, hiff⟩ := hseg s hs
      exact List.filter_eq_self.2 fun e he => decide_eq_true ((hv _).2 ((hu _).2 ((hiff e).1 he).2))
    rw [e1, e2]

/-- the marks grow -/
theorem each_some (n : Nat) (items : List Item) (f : Item → List Item → Option (List Item)) (hf : ∀ i v, i ∈ items → (items.filter (· ∉ v)).length ≤ n →
    ∃ v', f i v = some v' ∧ ∀ x ∈ v, x ∈ v') : ∀ l v, (∀ i ∈ l, i ∈ items) → (items.filter (· ∉ v)).length ≤ n → ∃ v', each f l v = some v' ∧ ∀ x ∈ v, x ∈ v' := by
  intro l
  induction l with
  | nil => intro v _ _; exact ⟨v, rfl, fun _ h => h⟩
  | cons i l ih =>
    intro v hl hn
    obtain ⟨v1, h1, h2⟩ := hf i v (hl i List.mem_cons_self) hn
    rw [each, h1]
    have hle : (items.filter (· ∉ v1)).length ≤ (items.filter (· ∉ v)).length := by
      rw [← List.countP_eq_length_filter, ← List.countP_eq_length_filter]
      apply List.countP_mono_left
      intro x _ hx
      have hx := of_decide_eq_true hx
      exact decide_eq_true fun h => hx (h2 x h)
    obtain ⟨v', h3, h4⟩ := ih v1 (fun j hj => hl j (List.mem_cons_of_mem _ hj)) (Nat.le_trans hle hn)
    exact ⟨v', h3, fun x hx => h4 x (h2 x hx)⟩

/-- **It ends**: if all that is mentioned is among finitely many items, as many steps down as there are items are enough. -/
theorem collect_ends (p : Prog) (items : List Item) (hroot : ∀ s ∈ p.segments, ∀ e ∈ s, .ent e ∈ items) (hcl : ∀ i ∈ items, ∀ j, Mentions p i j → j ∈ items) (fuel : Nat)
    (hf : items.length < fuel) : ∃ q, collect fuel p = some q := by
  have key : ∀ fuel i v, i ∈ items → (items.filter (· ∉ v)).length < fuel → ∃ v', visit p fuel i v = some v' ∧ ∀ x ∈ v, x ∈ v' := by
    intro fuel
    induction fuel with
    | zero => intro i v _ h; exact absurd h (Nat.not_lt_zero _)
    | succ fuel ih =>
      intro i v hi hlt
      rw [visit]
      by_cases hv : i ∈ v
      · rw [if_pos hv]; exact ⟨v, rfl, fun _ h => h⟩
      · rw [if_neg hv]
        have hlt' : (items.filter (· ∉ i :: v)).length < (items.filter (· ∉ v)).length := by
          have hsub : items.filter (· ∉ i :: v) = (items.filter (· ∉ v)).filter (· ≠ i) := by
            rw [List.filter_filter]
            apply List.filter_congr
            intro x _
            simp [List.mem_cons, not_or]
          rw [hsub]
          apply List.length_filter_lt_length_iff_exists.2
          exact ⟨i, List.mem_filter.2 ⟨hi, decide_eq_true hv⟩, by simp⟩
        obtain ⟨v', h1, h2⟩ := each_some (fuel - 1) items (visit p fuel) (fun j w hj hw => ih j w hj (by omega)) (next p i) (i :: v)
          (fun j hj => hcl i hi j ((next_mentions p i j).1 hj)) (by omega)
        exact ⟨v', h1, fun x hx => h2 x (List.mem_cons_of_mem _ hx)⟩
  obtain ⟨v, hv, _⟩ := each_some items.length items (visit p fuel) (fun j w hj hw => key fuel j w hj (by omega)) (p.segments.flatMap (segmentRoots p)) []
    (fun i hi => by
      obtain ⟨s, hs, h⟩ := List.mem_flatMap.1 hi
      obtain ⟨e, he, rfl⟩ := List.mem_map.1 h
      exact hroot s hs e (List.mem_filter.1 he).1) (List.length_filter_le _ _)
  unfold collect mark
  rw [hv]
  exact ⟨_, rfl⟩

/-- `main` (0) calls 1, which is an alias of 2, whose graph is a loop with a table 3; 4 and 5 mention each other only -/
def sample : Prog where
  kind e := [Kind.method (some 0), .aliasOf 2, .method (some 1), .normal [3], .normal [4], .normal [5]][e]?.getD .other
  ins n := [[2], [2], [1, 2], [3]][n]?.getD []
  attr n := [some 1, some 3, none, none, some 5, some 4][n]?.getD none
  segments := [[0, 1, 2], [3, 4, 5]]
  graphs := [0, 2]
  root e := e == 0

example : ((collect 13 sample).map fun q => (q.segments, q.graphs)) = some ([[0, 1, 2], [3]], [0, 2]) := by decide +kernel
example : ((collect 13 { sample with root := fun e => e == 4 }).map fun q => (q.segments, q.graphs)) = some ([[], [4, 5]], []) := by decide +kernel
example : InUse sample (.ent 3) :=
  ⟨[0, 1, 2], by decide, 0, by decide, rfl, .head (.graph (n := 0) rfl) (.head (.entity (e := 1) rfl) (.head (.aliased (t := 2) rfl) (.head (.graph (n := 1) rfl)
    (.head (.entity (e := 3) rfl) .refl))))⟩

end Verif.Props.Garbage
