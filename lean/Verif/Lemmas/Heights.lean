import Verif.Model.Heights
/-!
# Lemmas: heights
-/
namespace Verif.Model.Heights
open Verif.Spec.Heights

theorem put_same (h : State) (x : Nat) (d : Data) : (h.put x d).data x = some d := by simp [State.put]
theorem put_ne (h : State) {x y : Nat} (d : Data) (hne : y ≠ x) : (h.put x d).data y = h.data y := by simp [State.put, hne]
theorem put_visited (h : State) (x : Nat) (d : Data) : (h.put x d).visited = h.visited := rfl

def State.Bounded (h : State) (g : Graph) (bl : Nat) : Prop := ∀ y d, g.block y = bl → h.data y = some d → d.visited ≤ h.visited

/-- only nodes of the block with smaller rank have changed, and their heights are right -/
structure Step (g : Graph) (rank : Nat → Nat) (bl R : Nat) (P : Nat → Prop) (h h' : State) : Prop where
  visited : h'.visited = h.visited
  bounded : h'.Bounded g bl
  frame : ∀ y, P y ∨ h'.data y = h.data y ∨ (g.block y = bl ∧ rank y < R ∧ ∃ k, h'.data y = some ⟨k, h.visited⟩ ∧ g.Height y k)

def Done (g : Graph) (rank : Nat → Nat) (bl R : Nat) (h : State) : Prop :=
  ∀ y d, g.block y = bl → rank y < R → h.data y = some d → d.visited = h.visited → g.Height y d.height

theorem Step.trans {g : Graph} {rank : Nat → Nat} {bl R : Nat} {P : Nat → Prop} {h1 h2 h3 : State} (a : Step g rank bl R P h1 h2) (b : Step g rank bl R P h2 h3) :
    Step g rank bl R P h1 h3 where
  visited := b.visited.trans a.visited
  bounded := b.bounded
  frame := by
    intro y
    rcases b.frame y with hb | hb | ⟨b1, b2, k, b3, b4⟩
    · exact Or.inl hb
    · rcases a.frame y with ha | ha | ⟨a1, a2, k, a3, a4⟩
      · exact Or.inl ha
      · exact Or.inr (Or.inl (hb.trans ha))
      · exact Or.inr (Or.inr ⟨a1, a2, k, hb.trans a3, a4⟩)
    · exact Or.inr (Or.inr ⟨b1, b2, k, a.visited ▸ b3, b4⟩)

theorem Step.refl {g : Graph} {rank : Nat → Nat} {bl R : Nat} {P : Nat → Prop} {h : State} (hb : h.Bounded g bl) : Step g rank bl R P h h :=
  ⟨rfl, hb, fun _ => Or.inr (Or.inl rfl)⟩

theorem Step.mono {g : Graph} {rank : Nat → Nat} {bl R R' : Nat} {P P' : Nat → Prop} {h h' : State} (a : Step g rank bl R P h h') (hR : R ≤ R') (hP : ∀ y, P y → P' y) :
    Step g rank bl R' P' h h' :=
  ⟨a.visited, a.bounded, fun y => (a.frame y).imp (hP y) fun e => e.imp id fun ⟨e1, e2, e3⟩ => ⟨e1, Nat.lt_of_lt_of_le e2 hR, e3⟩⟩

theorem Done.step {g : Graph} {rank : Nat → Nat} {bl R R' : Nat} {P : Nat → Prop} {h h' : State} (a : Done g rank bl R h) (s : Step g rank bl R' P h h')
    (hP : ∀ y, P y → ¬ rank y < R) : Done g rank bl R h' := by
  intro y d hy hr hd hv
  rcases s.frame y with e | e | ⟨-, -, k, e1, e2⟩
  · exact absurd hr (hP y e)
  · rw [e] at hd
    exact a y d hy hr hd (hv.trans s.visited)
  · rw [e1] at hd
    obtain rfl := Option.some.inj hd
    exact e2

theorem Bounded.put {g : Graph} {bl : Nat} {h : State} (hb : h.Bounded g bl) (x : Nat) {d : Data} (hd : d.visited ≤ h.visited) : (h.put x d).Bounded g bl := by
  intro y e hy' he
  by_cases hy : y = x
  · subst hy
    rw [put_same] at he
    obtain rfl := Option.some.inj he
    exact hd
  · rw [put_ne _ _ hy] at he
    exact hb y e hy' he

theorem compute_ok {g : Graph} {rank : Nat → Nat} (hrank : ∀ x d, g.Use x d → rank d < rank x) (bl : Nat) : ∀ fuel h x, h.Bounded g bl → rank x < fuel → g.block x = bl →
    Done g rank bl (rank x + 1) h → 0 < h.visited →
    ∃ k h', computeHeight g bl fuel h x = some (k, h') ∧ g.Height x k ∧ h'.data x = some ⟨k, h.visited⟩ ∧ Step g rank bl (rank x + 1) (fun _ => False) h h' := by
  intro fuel
  induction fuel with
  | zero => intro h x _ hf; omega
  | succ fuel ih =>
    intro h x hb hf hx hdone hpos
    -- the loop
    have loop : ∀ ds, (∀ d ∈ ds, d ∈ g.users x) → ∀ (s : State) (a : Nat), s.Bounded g bl → s.data x = some ⟨a, s.visited⟩ → g.Chain x a → Done g rank bl (rank x) s → 0 < s.visited →
        ∃ k s', heightAll g bl x (computeHeight g bl fuel) s ds = some s' ∧ s'.data x = some ⟨k, s.visited⟩ ∧ g.Chain x k ∧ a ≤ k ∧
          (∀ d ∈ ds, g.Use x d → ∀ j, g.Chain d j → j + 1 ≤ k) ∧ Step g rank bl (rank x) (· = x) s s' := by
      intro ds
      induction ds with
      | nil => intro _ s a hsb hsx hc _ _; exact ⟨a, s, rfl, hsx, hc, Nat.le_refl _, fun d hd => (nomatch hd), Step.refl hsb⟩
      | cons d ds ihd =>
        intro hds s a hsb hsx hc hsd hsp
        unfold heightAll
        by_cases hu : (!g.isBlock d && !g.phi d && g.block d == bl) = true
        · rw [if_pos hu]
          simp only [Bool.and_eq_true, Bool.not_eq_true', beq_iff_eq] at hu
          have huse : g.Use x d := ⟨hds d (List.mem_cons_self ..), hu.1.1, hu.1.2, hu.2.trans hx.symm⟩
          have hlt := hrank x d huse
          obtain ⟨k, s1, e1, e2, e3, e4⟩ := ih s d hsb (by omega) hu.2 (fun y e hy hr => hsd y e hy (by omega)) hsp
          rw [e1]
          simp only
          have hx1 : s1.data x = some ⟨a, s.visited⟩ := by
            rcases e4.frame x with e | e | ⟨-, e, -⟩
            · exact e.elim
            · exact e.trans hsx
            · omega
          rw [hx1]
          simp only
          have hv1 := e4.visited
          have hcm : g.Chain x (max a (k + 1)) := by
            rcases Nat.le_total a (k + 1) with hh | hh
            · rw [Nat.max_eq_right hh]; exact .cons huse e2.1
            · rw [Nat.max_eq_left hh]; exact hc
          have st1 : Step g rank bl (rank x) (· = x) s (s1.put x ⟨max a (k + 1), s.visited⟩) := by
            refine (e4.mono (by omega) (fun _ e => e.elim)).trans ⟨rfl, Bounded.put e4.bounded _ (by simp [hv1]), fun y => ?_⟩
            by_cases hy : y = x
            · exact Or.inl hy
            · exact Or.inr (Or.inl (put_ne _ _ hy))
          obtain ⟨k', s', f1, f2, f3, f4, f5, f6⟩ := ihd (fun d' hd' => hds d' (List.mem_cons_of_mem _ hd')) (s1.put x ⟨max a (k + 1), s.visited⟩) (max a (k + 1))
            st1.bounded (by rw [put_same, put_visited, hv1]) hcm (hsd.step st1 (fun y hy => by subst hy; omega)) (by rw [put_visited, hv1]; exact hsp)
          refine ⟨k', s', f1, by rw [f2, put_visited, hv1], f3, Nat.le_trans (Nat.le_max_left ..) f4, ?_, st1.trans f6⟩
          intro d' hd' hu' j hj
          rcases List.mem_cons.1 hd' with rfl | hd'
          · have := e2.2 j hj
            have := Nat.le_max_right a (k + 1)
            omega
          · exact f5 d' hd' hu' j hj
        · rw [if_neg hu]
          obtain ⟨k', s', f1, f2, f3, f4, f5, f6⟩ := ihd (fun d' hd' => hds d' (List.mem_cons_of_mem _ hd')) s a hsb hsx hc hsd hsp
          refine ⟨k', s', f1, f2, f3, f4, ?_, f6⟩
          intro d' hd' hu' j hj
          rcases List.mem_cons.1 hd' with rfl | hd'
          · refine absurd ?_ hu
            simp [hu'.2.1, hu'.2.2.1, hu'.2.2.2, hx]
          · exact f5 d' hd' hu' j hj
    -- `get` and the mark
    have rest : ∀ h1 : State, h1.visited = h.visited → h1.Bounded g bl → (∀ y, y ≠ x → h1.data y = h.data y) →
        ∃ k h', (match heightAll g bl x (computeHeight g bl fuel) (h1.put x ⟨0, h1.visited⟩) (g.users x) with
          | none => none
          | some h => match h.data x with
            | none => none
            | some ih => some (ih.height, h)) = some (k, h') ∧ g.Height x k ∧ h'.data x = some ⟨k, h.visited⟩ ∧ Step g rank bl (rank x + 1) (fun _ => False) h h' := by
      intro h1 hv1 hb1 hfr
      have hbp : (h1.put x ⟨0, h1.visited⟩).Bounded g bl := Bounded.put hb1 _ (Nat.le_refl _)
      obtain ⟨k, s', f1, f2, f3, f4, f5, f6⟩ := loop (g.users x) (fun d hd => hd) (h1.put x ⟨0, h1.visited⟩) 0 hbp (put_same ..) (.nil x)
        (fun y d hy hr hd hv => by
          have hne : y ≠ x := by rintro rfl; omega
          rw [put_ne _ _ hne, hfr y hne] at hd
          exact hdone y d hy (by omega) hd (hv.trans hv1)) (by rw [put_visited, hv1]; exact hpos)
      rw [f1]
      simp only
      rw [f2]
      have hheight : g.Height x k := by
        refine ⟨f3, fun j hj => ?_⟩
        cases hj with
        | nil => omega
        | cons hu hc => exact f5 _ hu.1 hu _ hc
      refine ⟨k, s', rfl, hheight, by rw [f2, put_visited, hv1], f6.visited.trans hv1, f6.bounded, fun y => ?_⟩
      by_cases hy : y = x
      · subst hy
        exact Or.inr (Or.inr ⟨hx, by omega, k, by rw [f2, put_visited, hv1], hheight⟩)
      · rcases f6.frame y with e | e | ⟨e1, e2, k', e3, e4⟩
        · exact absurd e hy
        · exact Or.inr (Or.inl (by rw [e, put_ne _ _ hy, hfr y hy]))
        · exact Or.inr (Or.inr ⟨e1, by omega, k', by rw [e3, put_visited, hv1], e4⟩)
    unfold computeHeight State.get
    cases hdx : h.data x with
    | some d =>
      simp only
      by_cases hvis : d.visited ≥ h.visited
      · rw [if_pos hvis]
        have hve : d.visited = h.visited := Nat.le_antisymm (hb x d hx hdx) hvis
        refine ⟨d.height, h, rfl, hdone x d hx (by omega) hdx hve, ?_, Step.refl hb⟩
        rw [hdx, ← hve]
      · rw [if_neg hvis]
        exact rest h rfl hb fun _ _ => rfl
    | none =>
      simp only
      rw [if_neg (by rw [put_visited]; omega)]
      exact rest (h.put x ⟨0, 0⟩) rfl (Bounded.put hb _ (Nat.zero_le _)) fun y hy => put_ne _ _ hy

theorem computeAll_ok {g : Graph} {rank : Nat → Nat} (hrank : ∀ x d, g.Use x d → rank d < rank x) {n : Nat} (hn : ∀ x, rank x < n) {bl fuel : Nat} (hf : n ≤ fuel) :
    ∀ xs h, (∀ x ∈ xs, g.block x = bl) → h.Bounded g bl → Done g rank bl n h → 0 < h.visited →
    ∃ h', computeAll g bl fuel h xs = some h' ∧ Step g rank bl n (fun _ => False) h h' ∧ ∀ x ∈ xs, ∃ k, h'.data x = some ⟨k, h.visited⟩ ∧ g.Height x k := by
  intro xs
  induction xs with
  | nil => intro h _ hb _ _; exact ⟨h, rfl, Step.refl hb, fun x hx => (nomatch hx)⟩
  | cons x xs ih =>
    intro h hxs hb hd hp
    obtain ⟨k, h1, e1, e2, e3, e4⟩ := compute_ok hrank bl fuel h x hb (Nat.lt_of_lt_of_le (hn x) hf) (hxs x (List.mem_cons_self ..))
      (fun y d hy _ => hd y d hy (hn y)) hp
    unfold computeAll
    rw [e1]
    simp only
    have e4' := e4.mono (R' := n) (P' := fun _ => False) (hn x) fun _ e => e
    obtain ⟨h', f1, f2, f3⟩ := ih h1 (fun y hy => hxs y (List.mem_cons_of_mem _ hy)) e4.bounded (hd.step e4' fun _ e => e.elim) (by rw [e4.visited]; exact hp)
    refine ⟨h', f1, e4'.trans f2, fun y hy => ?_⟩
    rcases List.mem_cons.1 hy with rfl | hy
    · rcases f2.frame y with e | e | ⟨-, -, k', g1, g2⟩
      · exact e.elim
      · exact ⟨k, e.trans e3, e2⟩
      · exact ⟨k', e4.visited ▸ g1, g2⟩
    · obtain ⟨k', g1, g2⟩ := f3 y hy
      exact ⟨k', e4.visited ▸ g1, g2⟩

/-- the node has data with the right height -/
def State.Right (g : Graph) (h : State) (x : Nat) : Prop := ∃ d, h.data x = some d ∧ g.Height x d.height

theorem computeBlock_ok {g : Graph} (hg : g.Ok) {nodes : Nat → List Nat} {bl : Nat} (hnodes : ∀ x, x ∈ nodes bl → g.block x = bl) {fuel : Nat} (hf : g.n ≤ fuel) {h : State}
    (hb : h.Bounded g bl) : ∃ h', computeBlock g fuel nodes h bl = some h' ∧ h'.Bounded g bl ∧ h'.visited = h.visited + 1 ∧ (∀ x ∈ nodes bl, h'.Right g x) ∧
      ∀ x, g.block x ≠ bl → h'.data x = h.data x := by
  obtain ⟨rank, hn, hrank⟩ := hg.acyclic
  have hb' : State.Bounded { h with visited := h.visited + 1 } g bl := fun y d hy hd => Nat.le_succ_of_le (hb y d hy hd)
  obtain ⟨h', e1, e2, e3⟩ := computeAll_ok hrank hn hf (nodes bl) { h with visited := h.visited + 1 } (fun x hx => hnodes x hx) hb'
    (fun y d hy _ hd hv => by have := hb y d hy hd; simp only at hv; omega) (Nat.succ_pos _)
  refine ⟨h', e1, e2.bounded, e2.visited, fun x hx => ?_, fun x hx => ?_⟩
  · obtain ⟨k, k1, k2⟩ := e3 x hx
    exact ⟨_, k1, k2⟩
  · rcases e2.frame x with e | e | ⟨e, -⟩
    · exact e.elim
    · exact e
    · exact absurd e hx

/-! ## The search -/

/-- the height of an operand is larger -/
theorem height_op {g : Graph} (hg : g.Ok) {x o j k : Nat} (hp : g.phi x = false) (hx' : g.isBlock x = false) (ho : o ∈ g.ins x)
    (hb : g.block o = g.block x) (hx : g.Height x j) (hh : g.Height o k) : j < k :=
  hh.2 (j + 1) (.cons ⟨(hg.edge o x).2 ho, hx', hp, hb.symm⟩ hx.1)

/-- along a path the height grows -/
theorem reach_height {g : Graph} (hg : g.Ok) {m : Nat} (hm : g.isBlock m = false) {h : State} (hr : ∀ x, g.block x = g.block m → h.Right g x) {x : Nat} (hx : g.Reach m x) :
    ∀ j k, g.Height x j → g.Height m k → j ≤ k := by
  induction hx with
  | refl => intro j k hj hk; exact hk.2 j hj.1
  | @step x o hb hp ho hro ih =>
    intro j k hj hk
    have hxb : g.isBlock x = false := by
      apply Bool.eq_false_iff.2
      exact fun e => hg.blocks x m e hm hb
    have hob : g.block o = g.block m := by
      cases hro with
      | refl => rfl
      | step e _ _ _ => exact e
    obtain ⟨d, -, hd⟩ := hr o hob
    have := height_op hg hp hxb ho (hob.trans hb.symm) hj hd
    have := ih _ k hd hk
    omega

/-- Only the marks of nodes of the block have changed. -/
structure Marks (g : Graph) (bl : Nat) (h h' : State) : Prop where
  visited : h'.visited = h.visited
  frame : ∀ y, h'.data y = h.data y ∨ (g.block y = bl ∧ ∃ d, h.data y = some d ∧ d.visited < h.visited ∧ h'.data y = some ⟨d.height, h.visited⟩)

theorem Marks.refl {g : Graph} {bl : Nat} {h : State} : Marks g bl h h := ⟨rfl, fun _ => Or.inl rfl⟩

theorem Marks.trans {g : Graph} {bl : Nat} {h1 h2 h3 : State} (a : Marks g bl h1 h2) (b : Marks g bl h2 h3) : Marks g bl h1 h3 where
  visited := b.visited.trans a.visited
  frame := by
    intro y
    rcases b.frame y with hb | ⟨b1, d, b2, b3, b4⟩
    · rcases a.frame y with ha | ⟨a1, d, a2, a3, a4⟩
      · exact Or.inl (hb.trans ha)
      · exact Or.inr ⟨a1, d, a2, a3, hb.trans a4⟩
    · rcases a.frame y with ha | ⟨a1, e, a2, a3, a4⟩
      · exact Or.inr ⟨b1, d, ha ▸ b2, a.visited ▸ b3, a.visited ▸ b4⟩
      · rw [a4] at b2
        obtain rfl := Option.some.inj b2
        simp only [a.visited] at b3
        omega

theorem Marks.right {g : Graph} {bl : Nat} {h h' : State} (a : Marks g bl h h') {x : Nat} (hx : h.Right g x) : h'.Right g x := by
  obtain ⟨d, d1, d2⟩ := hx
  rcases a.frame x with e | ⟨-, d', e1, -, e3⟩
  · exact ⟨d, e.trans d1, d2⟩
  · rw [e1] at d1
    obtain rfl := Option.some.inj d1
    exact ⟨_, e3, d2⟩

theorem Marks.bounded {g : Graph} {bl : Nat} {h h' : State} (a : Marks g bl h h') {b : Nat} (hb : h.Bounded g b) : h'.Bounded g b := by
  intro y d hy hd
  rcases a.frame y with e | ⟨-, d', -, -, e3⟩
  · rw [a.visited]
    exact hb y d hy (e ▸ hd)
  · rw [e3] at hd
    obtain rfl := Option.some.inj hd
    exact Nat.le_of_eq a.visited.symm

def State.Marked (h : State) (x : Nat) : Prop := ∃ d, h.data x = some d ∧ d.visited = h.visited

theorem search_ok {g : Graph} (hg : g.Ok) {m : Nat} (hm : g.isBlock m = false) : ∀ fuel h x, h.Bounded g (g.block m) → (∀ y, g.block y = g.block m → h.Right g y) →
    0 < fuel → (g.block x = g.block m → ∀ j k, g.Height x j → g.Height m k → k + 1 < fuel + j) →
    (g.block x = g.block m → ∀ y j k, h.Marked y → g.block y = g.block m → g.Height x j → g.Height y k → j ≤ k → ¬ g.Reach m y) →
    ∃ r h', search g m fuel h x = some (r, h') ∧ (r = true ↔ g.Reach m x) ∧ Marks g (g.block m) h h' ∧
      (r = false → ∀ y, h'.Marked y → h.Marked y ∨ ¬ g.Reach m y) := by
  intro fuel
  induction fuel with
  | zero => intro h x _ _ hf; omega
  | succ fuel ih =>
    intro h x hb hr _ hfu hpre
    unfold search
    by_cases c1 : x = m
    · rw [if_pos c1]
      subst c1
      exact ⟨true, h, rfl, ⟨fun _ => .refl, fun _ => rfl⟩, Marks.refl, fun e => (nomatch e)⟩
    rw [if_neg c1]
    have inv : g.Reach m x → g.block x = g.block m ∧ g.phi x = false ∧ ∃ o ∈ g.ins x, g.Reach m o := by
      intro e
      cases e with
      | refl => exact absurd rfl c1
      | step a b c d => exact ⟨a, b, _, c, d⟩
    by_cases c2 : g.block x ≠ g.block m
    · rw [if_pos c2]
      exact ⟨false, h, rfl, ⟨fun e => (nomatch e), fun e => absurd (inv e).1 c2⟩, Marks.refl, fun _ y hy => Or.inl hy⟩
    rw [if_neg c2]
    have c2 : g.block x = g.block m := Classical.byContradiction c2
    by_cases c3 : g.phi x = true
    · rw [if_pos c3]
      refine ⟨false, h, rfl, ⟨fun e => (nomatch e), fun e => ?_⟩, Marks.refl, fun _ y hy => Or.inl hy⟩
      rw [(inv e).2.1] at c3
      cases c3
    rw [if_neg c3]
    have c3' : g.phi x = false := Bool.eq_false_iff.2 c3
    obtain ⟨hc, hc1, hc2⟩ := hr x c2
    obtain ⟨ht, ht1, ht2⟩ := hr m rfl
    rw [hc1]
    simp only
    by_cases c4 : hc.visited ≥ h.visited
    · rw [if_pos c4]
      have := hpre c2 x _ _ ⟨hc, hc1, Nat.le_antisymm (hb x hc c2 hc1) c4⟩ c2 hc2 hc2 (Nat.le_refl _)
      exact ⟨false, h, rfl, ⟨fun e => (nomatch e), fun e => absurd e this⟩, Marks.refl, fun _ y hy => Or.inl hy⟩
    rw [if_neg c4, ht1]
    simp only
    by_cases c5 : hc.height > ht.height
    · rw [if_pos c5]
      refine ⟨false, h, rfl, ⟨fun e => (nomatch e), fun e => ?_⟩, Marks.refl, fun _ y hy => Or.inl hy⟩
      have := reach_height hg hm hr e _ _ hc2 ht2
      omega
    rw [if_neg c5]
    have hxb : g.isBlock x = false := Bool.eq_false_iff.2 fun e => hg.blocks x m e hm c2
    have st0 : Marks g (g.block m) h (h.put x { hc with visited := h.visited }) := by
      refine ⟨rfl, fun y => ?_⟩
      by_cases hy : y = x
      · subst hy
        exact Or.inr ⟨c2, hc, hc1, by omega, put_same ..⟩
      · exact Or.inl (put_ne _ _ hy)
    -- the loop over the operands
    have loop : ∀ os, (∀ o ∈ os, o ∈ g.ins x) → ∀ s, Marks g (g.block m) h s → (∀ y, s.Marked y → h.Marked y ∨ y = x ∨ ¬ g.Reach m y) →
        ∃ r s', searchAll (search g m fuel) s os = some (r, s') ∧ (r = true ↔ ∃ o ∈ os, g.Reach m o) ∧ Marks g (g.block m) h s' ∧
          (r = false → ∀ y, s'.Marked y → h.Marked y ∨ y = x ∨ ¬ g.Reach m y) := by
      intro os
      induction os with
      | nil =>
        intro _ s hs hmk
        exact ⟨false, s, rfl, ⟨fun e => (nomatch e), fun ⟨o, ho, _⟩ => (nomatch ho)⟩, hs, fun _ => hmk⟩
      | cons o os iho =>
        intro hos s hs hmk
        have ho := hos o (List.mem_cons_self ..)
        have hf1 : 0 < fuel := by
          have := hfu c2 _ _ hc2 ht2
          omega
        obtain ⟨r, s1, e1, e2, e3, e4⟩ := ih s o (hs.bounded hb) (fun y hy => hs.right (hr y hy)) hf1
          (fun hob j k hj hk => by
            have h1 := height_op hg c3' hxb ho (hob.trans c2.symm) hc2 hj
            have h2 := hfu c2 _ _ hc2 hk
            omega)
          (fun hob y j k hy hyb hj hk hjk => by
            have h1 := height_op hg c3' hxb ho (hob.trans c2.symm) hc2 hj
            rcases hmk y hy with hh | rfl | hh
            · exact hpre c2 y _ _ hh hyb hc2 hk (by omega)
            · have := hc2.2 k hk.1
              omega
            · exact hh)
        unfold searchAll
        rw [e1]
        cases r with
        | true => exact ⟨true, s1, rfl, ⟨fun _ => ⟨o, List.mem_cons_self .., e2.1 rfl⟩, fun _ => rfl⟩, hs.trans e3, fun e => (nomatch e)⟩
        | false =>
          simp only
          obtain ⟨r, s2, f1, f2, f3, f4⟩ := iho (fun o' ho' => hos o' (List.mem_cons_of_mem _ ho')) s1 (hs.trans e3) fun y hy => by
            rcases e4 rfl y hy with hh | hh
            · exact hmk y hh
            · exact Or.inr (Or.inr hh)
          refine ⟨r, s2, f1, ?_, f3, f4⟩
          rw [f2]
          constructor
          · rintro ⟨o', h1, h2⟩
            exact ⟨o', List.mem_cons_of_mem _ h1, h2⟩
          · rintro ⟨o', h1, h2⟩
            rcases List.mem_cons.1 h1 with rfl | h1
            · exact absurd (e2.2 h2) (by decide)
            · exact ⟨o', h1, h2⟩
    obtain ⟨r, s', f1, f2, f3, f4⟩ := loop (g.ins x) (fun o ho => ho) _ st0 fun y hy => by
      by_cases e : y = x
      · exact Or.inr (Or.inl e)
      · obtain ⟨d, d1, d2⟩ := hy
        rw [put_ne _ _ e] at d1
        exact Or.inl ⟨d, d1, d2⟩
    have hreach : r = true ↔ g.Reach m x := by
      rw [f2]
      exact ⟨fun ⟨o, h1, h2⟩ => .step c2 c3' h1 h2, fun e => (inv e).2.2⟩
    refine ⟨r, s', f1, hreach, f3, fun e y hy => ?_⟩
    rcases f4 e y hy with hh | rfl | hh
    · exact Or.inl hh
    · refine Or.inr fun hy' => ?_
      rw [hreach.2 hy'] at e
      cases e
    · exact Or.inr hh

end Verif.Model.Heights
