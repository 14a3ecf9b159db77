import Verif.Lemmas.Chordal
/-!
# Properties of the coloring (C105)
-/
namespace Verif.Props.Chordal
open Verif.Model.Dom Verif.Model.LiveChk Verif.Model.Interfere Verif.Model.Chordal Verif.Spec Verif.Spec.LivePoints Verif.Lemmas.Chordal Verif.Props Verif.Props.Interfere

/-- The program and the liveness sets are right; `vs` are the values of the program. -/
structure Input (c : Code) (vs : List Nat) (iter : List Nat → List Nat) : Prop where
  code : c.Ok
  nodup : vs.Nodup
  values : ∀ v, v ∈ vs ↔ c.prog.Value v
  flags : ∀ v ∈ vs, c.LvOk v
  ops : ∀ b u v, b < c.g.n → u ∈ c.sched b → v ∈ c.ops u → v ∈ vs
  iter : ∀ l v, v ∈ iter l ↔ v ∈ l

variable {c : Code} {cls : Nat → Bool} {vs : List Nat} {iter : List Nat → List Nat} {n : Nat} {alloc : Nat → Bool}

theorem mem_defs (h : c.Ok) {v i : Nat} : v ∈ defs c cls i ↔ c.owner v = i ∧ cls v = true := by
  rw [defs, List.mem_filter, h.values]

theorem mem_uses {v i : Nat} : v ∈ uses c cls i ↔ c.phi i = false ∧ v ∈ c.ops i ∧ cls v = true := by
  unfold uses
  cases c.phi i <;> simp

theorem end_exact (h : Input c vs iter) {b : Nat} (hb : b < c.g.n) (v : Nat) :
    v ∈ c.endOfBlock cls vs b ↔ c.prog.Value v ∧ cls v = true ∧ c.prog.LiveAt v b (c.sched b).length := by
  unfold Code.endOfBlock
  rw [List.mem_filter, Bool.and_eq_true]
  constructor
  · rintro ⟨a1, a2, a3⟩
    refine ⟨(h.values v).1 a1, a3, live_of_here h.code hb (Nat.le_refl _) (Or.inr ⟨fun k hk hd => ?_, (h.flags v a1 _ hb).1 a2⟩)⟩
    have := (List.getElem?_eq_some_iff.1 hd).1
    exact absurd this (Nat.not_lt.2 hk)
  · rintro ⟨a1, a2, a3⟩
    refine ⟨(h.values v).2 a1, (h.flags v ((h.values v).2 a1) _ hb).2 ?_, a2⟩
    rcases here_of_live h.code a1 a3 hb with ⟨j, hj, hu, -⟩ | ⟨-, he⟩
    · exact absurd (use_lt hu) (Nat.not_lt.2 hj)
    · exact he

/-- the backward scan yields the live values at each point -/
theorem scan_exact (h : Input c vs iter) {b : Nat} (hb : b < c.g.n) : ∀ (m k : Nat), k + m = (c.sched b).length → ∀ v,
    v ∈ (before c cls (c.endOfBlock cls vs b) ((c.sched b).drop k)).1 ↔ c.prog.Value v ∧ cls v = true ∧ c.prog.LiveAt v b k := by
  intro m
  induction m with
  | zero =>
    intro k hk v
    obtain rfl : k = (c.sched b).length := by omega
    rw [List.drop_length, before_nil]
    rw [List.mem_reverse]
    exact end_exact h hb v
  | succ m ih =>
    intro k hk v
    have hkl : k < (c.sched b).length := by omega
    have hku : (c.sched b)[k]? = some (c.sched b)[k] := List.getElem?_eq_getElem hkl
    rw [List.drop_eq_getElem_cons hkl]
    generalize (c.sched b)[k] = u at hku
    obtain ⟨-, -, -, -, h4⟩ := scanIns_spec (c := c) (cls := cls) u (before c cls (c.endOfBlock cls vs b) ((c.sched b).drop (k + 1)))
    change v ∈ (scanIns c cls (before c cls (c.endOfBlock cls vs b) ((c.sched b).drop (k + 1))) u).1 ↔ _
    rw [h4, ih (k + 1) (by omega), live_step (p := c.prog) (b := b) hkl, mem_defs h.code, mem_uses]
    constructor
    · rintro (⟨⟨a1, a2, a3⟩, a4⟩ | ⟨a0, a1, a2⟩)
      · exact ⟨a1, a2, Or.inr ⟨fun hd => a4 ⟨(Option.some.inj (hd.symm.trans hku)), a2⟩, a3⟩⟩
      · exact ⟨(h.values v).1 (h.ops b u v hb (List.mem_of_getElem? hku) a1), a2, Or.inl ⟨u, hku, a0, a1⟩⟩
    · rintro ⟨a1, a2, ⟨w, b1, b2, b3⟩ | ⟨b1, b2⟩⟩
      · have e : w = u := Option.some.inj (b1.symm.trans hku)
        subst e
        exact Or.inr ⟨b2, b3, a2⟩
      · exact Or.inl ⟨⟨a1, a2, b2⟩, fun hd => b1 (show (c.sched b)[k]? = some (c.owner v) by rw [hd.1]; exact hku)⟩

theorem live_le {v b k : Nat} (hl : c.prog.LiveAt v b k) : k ≤ (c.sched b).length := by
  cases hl with
  | use hu => exact Nat.le_of_lt (use_lt hu)
  | step hi _ _ => exact Nat.le_of_lt hi
  | phi _ => exact Nat.le_refl _
  | edge _ _ => exact Nat.le_refl _

theorem occupies_le {v b k : Nat} (ho : c.prog.Occupies v b k) : k ≤ (c.sched b).length := by
  rcases ho with hl | ⟨j, rfl, hd⟩
  · exact live_le hl
  · exact (List.getElem?_eq_some_iff.1 hd).1

theorem occ_of_occupies (h : Input c vs iter) {b k v : Nat} (hb : b < c.g.n) (hv : c.prog.Value v) (hc : cls v = true) (ho : c.prog.Occupies v b k) :
    occ c cls (c.endOfBlock cls vs b) (c.sched b) k v := by
  have hk := occupies_le ho
  rcases ho with hl | ⟨j, rfl, hd⟩
  · exact Or.inl ((scan_exact h hb ((c.sched b).length - k) k (by omega) v).2 ⟨hv, hc, hl⟩)
  · exact Or.inr ⟨j, c.owner v, rfl, hd, (mem_defs h.code).2 ⟨rfl, hc⟩⟩

/-- If the coloring gets to its end then two values that need a register at the same point have different registers.  Both are allocatable. -/
theorem color_valid (h : Input c vs iter) {order : List Nat} (horder : ∀ b, b < c.g.n → b ∈ order) {reg reg' : Nat → Option Nat}
    (hrun : color c cls vs iter n alloc order reg = some reg') {u v d k : Nat} (hu : c.prog.Value u) (hv : c.prog.Value v) (hcu : cls u = true)
    (hcv : cls v = true) (hne : u ≠ v) (hd : d < c.g.n) (hou : c.prog.Occupies u d k) (hov : c.prog.Occupies v d k) :
    ∃ r q, reg' u = some r ∧ reg' v = some q ∧ r ≠ q ∧ alloc r = true ∧ alloc q = true := by
  obtain ⟨-, h2⟩ := color_ext h.nodup h.iter order hrun
  obtain ⟨d1, d2⟩ := h2 d (horder d hd) k (occupies_le hou)
  have ou := occ_of_occupies h hd hu hcu hou
  have ov := occ_of_occupies h hd hv hcv hov
  obtain ⟨r, r1, r2⟩ := d1 u ou
  obtain ⟨q, q1, q2⟩ := d1 v ov
  refine ⟨r, q, r1, q1, ?_, r2, q2⟩
  rintro rfl
  exact hne (d2 u v ou ov (r1.trans q1.symm))

/-- The coloring does not change registers that are already fixed. -/
theorem color_keeps (h : Input c vs iter) {order : List Nat} {reg reg' : Nat → Option Nat}
    (hrun : color c cls vs iter n alloc order reg = some reg') {v r : Nat} (hv : reg v = some r) : reg' v = some r :=
  (color_ext h.nodup h.iter order hrun).1 v r hv

/-- In the terms of `be_values_interfere`: values that interfere have different registers. -/
theorem color_interfere (h : Input c vs iter) {order : List Nat} (horder : ∀ b, b < c.g.n → b ∈ order) {reg reg' : Nat → Option Nat}
    (hrun : color c cls vs iter n alloc order reg = some reg') {u v : Nat} (hu : c.prog.Value u) (hv : c.prog.Value v) (hcu : cls u = true)
    (hcv : cls v = true) (hne : c.owner u ≠ c.owner v) (hi : c.interfere u v = true) : reg' u ≠ reg' v := by
  obtain ⟨d, k, h1, h2, h3⟩ := (values_interfere_iff h.code hu hv hne (h.flags u ((h.values u).2 hu)) (h.flags v ((h.values v).2 hv))).1 hi
  obtain ⟨r, q, r1, q1, hrq, -, -⟩ := color_valid h horder hrun hu hv hcu hcv (fun e => hne (by rw [e])) h1 h2 h3
  rw [r1, q1]
  exact fun e => hrq (Option.some.inj e)

/-! ## There are enough registers -/

/-- number of registers -/
def count (n : Nat) (alloc : Nat → Bool) : Nat := ((List.range n).filter alloc).length

theorem length_le_of_subset {α : Type} [DecidableEq α] : ∀ {l m : List α}, l.Nodup → (∀ x ∈ l, x ∈ m) → l.length ≤ m.length := by
  intro l
  induction l with
  | nil => intro m _ _; exact Nat.zero_le _
  | cons x l ih =>
    intro m hn hs
    obtain ⟨h1, h2⟩ := List.nodup_cons.1 hn
    have hx := hs x (List.mem_cons_self ..)
    have : l.length ≤ (m.erase x).length := ih h2 fun y hy => by
      refine (List.mem_erase_of_ne ?_).2 (hs y (List.mem_cons_of_mem _ hy))
      rintro rfl
      exact h1 hy
    rw [List.length_erase_of_mem hx] at this
    have : 0 < m.length := List.length_pos_of_mem hx
    simp only [List.length_cons]
    omega

/-- a register is free if there are fewer active values than registers -/
theorem free_exists {act : List Nat} {s : Model.Chordal.State} (hi : Inv alloc act s) (hl : act.length < count n alloc) : ∃ r, nextFree n s.avail = some r := by
  refine Classical.byContradiction fun hno => ?_
  have hnone : nextFree n s.avail = none := by
    cases hf : nextFree n s.avail with
    | none => rfl
    | some r => exact absurd ⟨r, hf⟩ hno
  have hall := List.find?_eq_none.1 hnone
  have : ((List.range n).filter alloc).length ≤ (act.map s.reg).length := by
    have hn : (((List.range n).filter alloc).map some).Nodup := by
      refine List.Pairwise.map _ (fun a b hab e => hab (Option.some.inj e)) (List.nodup_range.filter _)
    have := length_le_of_subset (m := act.map s.reg) hn fun x hx => by
      obtain ⟨r, hr, rfl⟩ := List.mem_map.1 hx
      obtain ⟨r1, r2⟩ := List.mem_filter.1 hr
      have := hall r r1
      rw [hi.avail] at this
      refine Classical.byContradiction fun hh => this ⟨r2, fun v hv e => hh ?_⟩
      exact List.mem_map.2 ⟨v, hv, e⟩
    simpa using this
  rw [List.length_map] at this
  simp only [count] at hl
  omega

/-- definitions of values that have no register yet -/
theorem defs_succeed (ds : List Nat) : ∀ {act : List Nat} {s : Model.Chordal.State}, Inv alloc act s → ds.Nodup → (∀ d ∈ ds, s.reg d = none) →
    act.length + ds.length ≤ count n alloc → ∃ s', assignLoop n (ds.map fun d => ⟨d, true, true⟩) s = some s' := by
  induction ds with
  | nil => intro act s _ _ _ _; exact ⟨s, rfl⟩
  | cons d ds ih =>
    intro act s hi hn hr hl
    simp only [List.length_cons] at hl
    obtain ⟨r, hf⟩ := free_exists (n := n) hi (by omega)
    have hb : assignBorder n s ⟨d, true, true⟩ = some ((s.setReg d r).setBit r false) := by
      simp [assignBorder, hr d (List.mem_cons_self ..), hf]
    obtain ⟨g1, -, g3⟩ := def_run hi hb
    obtain ⟨h1, h2⟩ := List.nodup_cons.1 hn
    obtain ⟨s', hs'⟩ := ih g1 h2 (fun e he => by rw [g3 e fun hh => h1 (hh ▸ he)]; exact hr e (List.mem_cons_of_mem _ he)) (by
      simp only [List.length_cons]
      omega)
    refine ⟨s', ?_⟩
    simp only [List.map_cons, assignLoop, hb]
    exact hs'

/-- definitions of values that have different registers already -/
theorem liveins_succeed (ds : List Nat) : ∀ {act : List Nat} {s : Model.Chordal.State}, Inv alloc act s → ds.Nodup → (∀ d ∈ ds, d ∉ act) →
    Dist alloc s.reg (fun v => v ∈ ds ∨ v ∈ act) → ∃ s', assignLoop n (ds.map fun d => ⟨d, true, false⟩) s = some s' := by
  induction ds with
  | nil => intro act s _ _ _ _; exact ⟨s, rfl⟩
  | cons d ds ih =>
    intro act s hi hn hna hd
    obtain ⟨r, hr, ha⟩ := hd.1 d (Or.inl (List.mem_cons_self ..))
    have hav : s.avail r = true := (hi.avail r).2 ⟨ha, fun v hv e => by
      have := hd.2 v d (Or.inr hv) (Or.inl (List.mem_cons_self ..)) (e.trans hr.symm)
      exact hna d (List.mem_cons_self ..) (this ▸ hv)⟩
    have hb : assignBorder n s ⟨d, true, false⟩ = some (s.setBit r false) := by
      simp [assignBorder, hr, hav]
    obtain ⟨g1, g2, -⟩ := def_run hi hb
    obtain ⟨h1, h2⟩ := List.nodup_cons.1 hn
    obtain ⟨s', hs'⟩ := ih g1 h2 (fun e he hh => by
        rcases List.mem_cons.1 hh with rfl | hh
        · exact h1 he
        · exact hna e (List.mem_cons_of_mem _ he) hh)
      (hd.mono (Ext.refl _) fun v hv => by
        rcases hv with hv | hv
        · exact Or.inl (List.mem_cons_of_mem _ hv)
        · rcases List.mem_cons.1 hv with rfl | hv
          · exact Or.inl (List.mem_cons_self ..)
          · exact Or.inr hv)
    refine ⟨s', ?_⟩
    simp only [List.map_cons, assignLoop, hb]
    exact hs'

/-- The forward pass succeeds if all definitions are used later and there are enough registers at each point. -/
theorem forward_succeeds (hvals : ∀ u, (c.values u).Nodup) (hown : c.Ok) {e : List Nat} (he : e.Nodup) : ∀ (is : List Nat) {act : List Nat} {s : Model.Chordal.State},
    Inv alloc act s → is.Nodup → (∀ v, v ∈ (before c cls e is).1 ↔ v ∈ act) → (∀ i ∈ is, ∀ d ∈ defs c cls i, s.reg d = none) →
    (∀ k i, is[k]? = some i → ∀ d ∈ defs c cls i, d ∈ (before c cls e (is.drop (k + 1))).1) →
    (∀ k, k ≤ is.length → ∀ l : List Nat, l.Nodup → (∀ v ∈ l, v ∈ (before c cls e (is.drop k)).1) → l.length ≤ count n alloc) →
    ∃ s', assignLoop n (before c cls e is).2.reverse s = some s' := by
  intro is
  induction is with
  | nil =>
    intro act s h _ hl _ _ _
    rw [before_nil] at hl ⊢
    rw [← List.map_reverse]
    obtain ⟨t, g1, -, -⟩ := uses_run (n := n) e.reverse false h (nodup_rev he) fun u hu => (hl u).1 hu
    exact ⟨t, g1⟩
  | cons i is ih =>
    intro act s h hnd hl hnone hused hpress
    obtain ⟨hni, hnd'⟩ := List.nodup_cons.1 hnd
    have e1 : before c cls e (i :: is) = scanIns c cls (before c cls e is) i := rfl
    obtain ⟨us, u1, u2, u3, u4⟩ := scanIns_spec (c := c) (cls := cls) i (before c cls e is)
    rw [e1] at hl ⊢
    rw [u2]
    rw [List.reverse_append, List.reverse_append, ← List.map_reverse, ← List.map_reverse, loop_append]
    obtain ⟨t, g1, g2, g3⟩ := uses_run (n := n) us.reverse true h (nodup_rev u1) fun u hu => (hl u).1 ((u4 u).2 (Or.inr ((u3 u).1 (List.mem_reverse.1 hu)).1))
    rw [g1]
    simp only [Option.bind_some]
    rw [loop_append]
    have hdef : ∀ d ∈ defs c cls i, d ∈ (before c cls e is).1 := hused 0 i rfl
    have hnd2 : (defs c cls i).Nodup := (hvals i).filter _
    -- the active values after the uses and the definitions are the values that are live after the instruction
    have hact : ∀ v, v ∈ (act.filter fun v => v ∉ us.reverse) ↔ v ∈ (before c cls e is).1 ∧ v ∉ defs c cls i := by
      intro v
      rw [List.mem_filter, ← hl, u4]
      simp only [List.mem_reverse, decide_eq_true_eq, u3]
      constructor
      · rintro ⟨h1, h2⟩
        refine Classical.byContradiction fun hh => ?_
        rcases h1 with h1 | h1
        · exact hh h1
        · exact h2 ⟨h1, hh⟩
      · exact fun hh => ⟨Or.inl hh, fun h2 => h2.2 hh⟩
    have hdisj : ∀ d ∈ defs c cls i, d ∉ act.filter fun v => v ∉ us.reverse := fun d hd hh => ((hact d).1 hh).2 hd
    have hnapp : ((defs c cls i) ++ act.filter fun v => v ∉ us.reverse).Nodup :=
      List.nodup_append.2 ⟨hnd2, h.nodup.filter _, fun a ha b hb e => hdisj a ha (e ▸ hb)⟩
    have hlen := hpress 1 (by simp) _ hnapp fun v hv => by
      simp only [List.drop_succ_cons, List.drop_zero]
      rcases List.mem_append.1 hv with hv | hv
      · exact hdef v hv
      · exact ((hact v).1 hv).1
    rw [List.length_append] at hlen
    obtain ⟨t', ht'⟩ := defs_succeed (n := n) (defs c cls i).reverse g3 (nodup_rev hnd2) (fun d hd => by
      rw [g2]
      exact hnone i (List.mem_cons_self ..) d (List.mem_reverse.1 hd)) (by rw [List.length_reverse]; omega)
    rw [ht']
    simp only [Option.bind_some]
    obtain ⟨k1, -, k3⟩ := defs_run _ _ g3 ht'
    rw [List.reverse_reverse] at k1
    refine ih k1 hnd' (fun v => ?_) (fun j hj d hd => ?_) (fun k j hj => ?_) (fun k hk l => ?_)
    · rw [List.mem_append, hact]
      constructor
      · intro hv
        by_cases hd : v ∈ defs c cls i
        · exact Or.inl hd
        · exact Or.inr ⟨hv, hd⟩
      · rintro (hv | hv)
        · exact hdef v hv
        · exact hv.1
    · rw [k3 d fun hh => ?_, g2]
      · exact hnone j (List.mem_cons_of_mem _ hj) d hd
      · have e1 := ((mem_defs hown).1 hd).1
        have e2 := ((mem_defs hown).1 (List.mem_reverse.1 hh)).1
        exact hni (e2.symm.trans e1 ▸ hj)
    · have := hused (k + 1) j (by simpa using hj)
      simpa using this
    · have := hpress (k + 1) (by simpa using hk) l
      simpa using this

/-- two values that are live at the beginning of a block need a register at the same point of a block with one of the definitions -/
theorem both_at_def (h : Input c vs iter) {u v b : Nat} (hb : b < c.g.n) (hu : c.prog.Value u) (hv : c.prog.Value v) (hlu : c.prog.LiveAt u b 0)
    (hlv : c.prog.LiveAt v b 0) : ∃ d k, (d = c.db u ∨ d = c.db v) ∧ c.prog.Occupies u d k ∧ c.prog.Occupies v d k := by
  obtain ⟨i, hi⟩ := def_exists hu
  obtain ⟨j, hj⟩ := def_exists hv
  have key : ∀ {u v i j : Nat}, c.prog.Value u → c.prog.Value v → c.prog.LiveAt u b 0 → c.prog.LiveAt v b 0 →
      c.prog.DefAt u (c.db u) i → c.prog.DefAt v (c.db v) j →
      ((c.db u ≠ c.db v ∧ Dominates c.g.Edge c.g.start (c.db u) (c.db v)) ∨ (c.db u = c.db v ∧ i < j)) →
      c.prog.Occupies u (c.db v) (j + 1) ∧ c.prog.Occupies v (c.db v) (j + 1) := by
    intro u v i j hu hv hlu hlv hi hj hs
    have hf := h.flags u ((h.values u).2 hu)
    have := live_of_occupied h.code hu hv hi hj hf hs hb (Or.inl hlu) (Or.inl hlv)
    refine ⟨Or.inl ((liveAfter_live h.code hu hf hv.block hj hi fun e => ?_).1 this), Or.inr ⟨j, rfl, hj⟩⟩
    rcases hs with hs | hs
    · exact absurd e hs.1
    · exact Nat.le_of_lt hs.2
  by_cases e : c.db u = c.db v
  · rcases Nat.lt_trichotomy i j with hh | hh | hh
    · obtain ⟨o1, o2⟩ := key hu hv hlu hlv hi hj (Or.inr ⟨e, hh⟩)
      exact ⟨_, _, Or.inr rfl, o1, o2⟩
    · subst hh
      exact ⟨c.db u, i + 1, Or.inl rfl, Or.inr ⟨i, rfl, hi⟩, Or.inr ⟨i, rfl, by rw [e]; exact hj⟩⟩
    · obtain ⟨o1, o2⟩ := key hv hu hlv hlu hj hi (Or.inr ⟨e.symm, hh⟩)
      exact ⟨_, _, Or.inl rfl, o2, o1⟩
  · rcases dominates_chain h.code.prog.graph (h.code.prog.reach b hb) (occupied_dom h.code hu hb (Or.inl hlu)) (occupied_dom h.code hv hb (Or.inl hlv)) with hh | hh
    · obtain ⟨o1, o2⟩ := key hu hv hlu hlv hi hj (Or.inl ⟨e, hh⟩)
      exact ⟨_, _, Or.inr rfl, o1, o2⟩
    · obtain ⟨o1, o2⟩ := key hv hu hlv hlu hj hi (Or.inl ⟨Ne.symm e, hh⟩)
      exact ⟨_, _, Or.inl rfl, o2, o1⟩

/-- a value is not live at the beginning of the block in which it is defined -/
theorem livein_other (h : Input c vs iter) {v b : Nat} (hb : b < c.g.n) (hv : c.prog.Value v) (hl : c.prog.LiveAt v b 0) : c.db v ≠ b := by
  rintro rfl
  obtain ⟨i, hi⟩ := def_exists hv
  exact absurd (here_after h.code hv (here_of_live h.code hv hl hb) hi) (Nat.not_lt_zero _)

/-- What the coloring needs to get to its end: no register is fixed before, each value is used, and at no point there are more live values than
allocatable registers. -/
structure Enough (c : Code) (cls : Nat → Bool) (vs : List Nat) (iter : List Nat → List Nat) (n : Nat) (alloc : Nat → Bool) : Prop where
  flagsIn : ∀ b v, b < c.g.n → c.prog.Value v → cls v = true → c.prog.LiveAt v b 0 → (c.lv b v).inn = true
  results : ∀ u, (c.values u).Nodup
  iter : ∀ l, (iter l).Nodup
  value : ∀ b v, b < c.g.n → c.owner v ∈ c.sched b → c.prog.Value v
  used : ∀ b i v, b < c.g.n → cls v = true → c.prog.DefAt v b i → c.prog.LiveAt v b (i + 1)
  pressure : ∀ b k (l : List Nat), b < c.g.n → l.Nodup → (∀ v ∈ l, c.prog.Value v ∧ cls v = true ∧ c.prog.LiveAt v b k) → l.length ≤ count n alloc

/-- an order of the blocks in which each block comes after its dominators -/
structure Order (c : Code) (order : List Nat) : Prop where
  nodup : order.Nodup
  mem : ∀ b, b ∈ order ↔ b < c.g.n
  dom : ∀ pre b post, order = pre ++ b :: post → ∀ d, d < c.g.n → Dominates c.g.Edge c.g.start d b → d ≠ b → d ∈ pre

/-- If there are at each point at least as many registers as live values then the coloring finds a register for each value. -/
theorem color_succeeds (h : Input c vs iter) (he : Enough c cls vs iter n alloc) {order : List Nat} (ho : Order c order) {reg : Nat → Option Nat}
    (hreg : ∀ v, c.prog.Value v → cls v = true → reg v = none) :
    ∃ reg', color c cls vs iter n alloc order reg = some reg' := by
  have main : ∀ (rest pre : List Nat) (reg : Nat → Option Nat), order = pre ++ rest →
      (∀ b ∈ pre, ∀ k, k ≤ (c.sched b).length → Dist alloc reg (occ c cls (c.endOfBlock cls vs b) (c.sched b) k)) →
      (∀ v, c.prog.Value v → cls v = true → c.db v ∉ pre → reg v = none) → ∃ reg', color c cls vs iter n alloc rest reg = some reg' := by
    intro rest
    induction rest with
    | nil => intro pre reg _ _ _; exact ⟨reg, rfl⟩
    | cons b rest ih =>
      intro pre reg hord hdist hnone
      have hb : b < c.g.n := (ho.mem b).1 (by rw [hord]; simp)
      have hbpre : b ∉ pre := by
        have := ho.nodup
        rw [hord] at this
        exact fun hh => (List.nodup_append.1 this).2.2 b hh b (List.mem_cons_self ..) rfl
      have hend : (c.endOfBlock cls vs b).Nodup := h.nodup.filter _
      have hin : ∀ v, v ∈ (before c cls (c.endOfBlock cls vs b) (c.sched b)).1 ↔ c.prog.Value v ∧ cls v = true ∧ c.prog.LiveAt v b 0 := by
        intro v
        have := scan_exact (cls := cls) h hb (c.sched b).length 0 (by omega) v
        rwa [List.drop_zero] at this
      have hpre : ∀ v, c.prog.Value v → c.prog.LiveAt v b 0 → c.db v ∈ pre := by
        intro v hv hl
        exact ho.dom pre b rest hord _ hv.block (occupied_dom h.code hv hb (Or.inl hl)) (livein_other h hb hv hl)
      -- the borders
      have hborders : createBorders c cls vs iter b = some ((before c cls (c.endOfBlock cls vs b) (c.sched b)).2 ++
          (iter (before c cls (c.endOfBlock cls vs b) (c.sched b)).1).map fun v => ⟨v, true, false⟩) := by
        simp only [createBorders, foldl_before]
        rw [if_pos]
        rw [List.all_eq_true]
        intro v hv
        obtain ⟨v1, v2, v3⟩ := (hin v).1 ((h.iter _ v).1 hv)
        exact he.flagsIn b v hb v1 v2 v3
      -- the values that are live at the beginning have registers
      have hd0 : Dist alloc reg (fun v => v ∈ (iter (before c cls (c.endOfBlock cls vs b) (c.sched b)).1).reverse ∨ v ∈ ([] : List Nat)) := by
        have hmem : ∀ v, v ∈ (iter (before c cls (c.endOfBlock cls vs b) (c.sched b)).1).reverse ∨ v ∈ ([] : List Nat) →
            c.prog.Value v ∧ cls v = true ∧ c.prog.LiveAt v b 0 := by
          rintro v (hv | hv)
          · exact (hin v).1 ((h.iter _ v).1 (List.mem_reverse.1 hv))
          · exact nomatch hv
        refine ⟨fun v hv => ?_, fun u v hu hv e => ?_⟩
        · obtain ⟨v1, v2, v3⟩ := hmem v hv
          obtain ⟨j, hj⟩ := def_exists v1
          have hocc : c.prog.Occupies v (c.db v) (j + 1) := Or.inr ⟨j, rfl, hj⟩
          exact (hdist _ (hpre v v1 v3) _ (occupies_le hocc)).1 v (occ_of_occupies h v1.block v1 v2 hocc)
        · obtain ⟨u1, u2, u3⟩ := hmem u hu
          obtain ⟨v1, v2, v3⟩ := hmem v hv
          obtain ⟨d, k, hdd, o1, o2⟩ := both_at_def h hb u1 v1 u3 v3
          have hdp : d ∈ pre ∧ d < c.g.n := by
            rcases hdd with rfl | rfl
            · exact ⟨hpre u u1 u3, u1.block⟩
            · exact ⟨hpre v v1 v3, v1.block⟩
          exact (hdist d hdp.1 k (occupies_le o1)).2 u v (occ_of_occupies h hdp.2 u1 u2 o1) (occ_of_occupies h hdp.2 v1 v2 o2) e
      obtain ⟨t, ht⟩ := liveins_succeed (n := n) (iter (before c cls (c.endOfBlock cls vs b) (c.sched b)).1).reverse (inv_start reg) (nodup_rev (he.iter _))
        (fun _ _ hh => nomatch hh) hd0
      obtain ⟨k1, -, k3⟩ := defs_run _ _ (inv_start reg) ht
      obtain ⟨s', hs'⟩ := forward_succeeds (cls := cls) he.results h.code hend (c.sched b) k1 (h.code.prog.nodup b) (fun v => by
          rw [List.append_nil, List.reverse_reverse, h.iter]) (fun i hi d hd => by
          obtain ⟨e1, e2⟩ := (mem_defs h.code).1 hd
          have hval := he.value b d hb (by rw [e1]; exact hi)
          have hdb : c.db d = b := mem_block h.code hb (by rw [e1]; exact hi)
          rw [k3 d fun hh => livein_other h hb hval ((hin d).1 ((h.iter _ d).1 (List.mem_reverse.1 hh))).2.2 hdb]
          exact hnone d hval e2 (by rw [hdb]; exact hbpre)) (fun k i hi d hd => by
          obtain ⟨e1, e2⟩ := (mem_defs h.code).1 hd
          have hda : c.prog.DefAt d b k := by
            change (c.sched b)[k]? = some (c.owner d)
            rw [e1]
            exact hi
          have hk := (List.getElem?_eq_some_iff.1 hi).1
          exact (scan_exact h hb ((c.sched b).length - (k + 1)) (k + 1) (by omega) d).2
            ⟨he.value b d hb (by rw [e1]; exact List.mem_of_getElem? hi), e2, he.used b k d hb e2 hda⟩) (fun k hk l hl hv =>
          he.pressure b k l hb hl fun v hv' => (scan_exact h hb ((c.sched b).length - k) k (by omega) v).1 (hv v hv'))
      have hassign : assign n alloc ((before c cls (c.endOfBlock cls vs b) (c.sched b)).2 ++
          (iter (before c cls (c.endOfBlock cls vs b) (c.sched b)).1).map fun v => ⟨v, true, false⟩) reg = some s'.reg := by
        simp only [assign]
        rw [List.reverse_append, loop_append, ← List.map_reverse, ht]
        simp only [Option.bind_some]
        rw [hs']
        rfl
      obtain ⟨a1, a2, a3⟩ := assign_block h.nodup h.iter hborders hassign
      simp only [color, hborders, hassign, Option.bind_some]
      refine ih (pre ++ [b]) s'.reg (by rw [hord]; simp) (fun b' hb' k hk => ?_) fun v hv hc hvp => ?_
      · rcases List.mem_append.1 hb' with hb' | hb'
        · exact (hdist b' hb' k hk).mono a1 fun _ hh => hh
        · rw [List.mem_singleton] at hb'
          subst hb'
          exact a2 k hk
      · have h1 : c.db v ∉ pre := fun hh => hvp (List.mem_append_left _ hh)
        have h2 : c.db v ≠ b := fun hh => hvp (List.mem_append_right _ (List.mem_singleton.2 hh))
        rw [a3 v (fun hh => h1 (hpre v hv ((hin v).1 hh).2.2)) fun i hi hd => h2 ?_]
        · exact hnone v hv hc h1
        · have e1 := ((mem_defs h.code).1 hd).1
          exact mem_block h.code hb (by rw [e1]; exact hi)
  exact main order [] reg rfl (fun _ hh => nomatch hh) fun v hv hc _ => hreg v hv hc

/-- The number of live values can be computed with the backward scan. -/
theorem pressure_of_scan (h : Input c vs iter) {m : Nat}
    (hm : ∀ b k, b < c.g.n → k ≤ (c.sched b).length → (before c cls (c.endOfBlock cls vs b) ((c.sched b).drop k)).1.length ≤ m)
    {b k : Nat} {l : List Nat} (hb : b < c.g.n) (hl : l.Nodup) (hv : ∀ v ∈ l, c.prog.Value v ∧ cls v = true ∧ c.prog.LiveAt v b k) : l.length ≤ m := by
  cases l with
  | nil => exact Nat.zero_le _
  | cons x l =>
    have hk := live_le (hv x (List.mem_cons_self ..)).2.2
    refine Nat.le_trans (length_le_of_subset hl fun v hv' => ?_) (hm b k hb hk)
    exact (scan_exact h hb ((c.sched b).length - k) k (by omega) v).2 (hv v hv')

/-! ## Example -/

/-- an order in which the elements of a set may be visited -/
def visit : List Nat → List Nat
  | [] => []
  | x :: l => if l.contains x then visit l else x :: visit l

theorem mem_visit (l : List Nat) (v : Nat) : v ∈ visit l ↔ v ∈ l := by
  induction l with
  | nil => simp [visit]
  | cons x l ih =>
    unfold visit
    split
    next h =>
      rw [ih, List.mem_cons]
      refine ⟨Or.inr, fun hh => hh.elim (fun e => ?_) id⟩
      rw [e]
      simpa using h
    next => rw [List.mem_cons, List.mem_cons, ih]

theorem nodup_visit (l : List Nat) : (visit l).Nodup := by
  induction l with
  | nil => exact List.nodup_nil
  | cons x l ih =>
    unfold visit
    split
    · exact ih
    next h => exact List.nodup_cons.2 ⟨fun hh => h (by simpa using (mem_visit l x).1 hh), ih⟩

/-- the values of the loop that need a register -/
def loopCls (v : Nat) : Bool := v != 15

theorem loop_value15 : loopCode.prog.Value 15 where
  block := by decide
  sched := by decide
  strict :=
    { use := by
        intro b i hb hu
        obtain ⟨-, ⟨-, e | e⟩ | ⟨-, e⟩ | ⟨-, e⟩⟩ := loop_use hb hu <;> exact absurd e (by decide)
      phi := by
        intro b hb hu
        obtain ⟨-, e⟩ | ⟨-, e⟩ := loop_phi hu <;> exact absurd e (by decide) }

theorem loop_values (v : Nat) : v ∈ [10, 11, 12, 13, 14, 15, 16] ↔ loopCode.prog.Value v := by
  constructor
  · intro hv
    simp only [List.mem_cons, List.not_mem_nil, or_false] at hv
    by_cases e : v = 15
    · subst e
      exact loop_value15
    · exact loop_value (by omega)
  · intro hv
    have := loop_sched hv.sched
    change (if v = 16 then 14 else v) = 10 ∨ (if v = 16 then 14 else v) = 11 ∨ (if v = 16 then 14 else v) = 12 ∨ (if v = 16 then 14 else v) = 13 ∨
      (if v = 16 then 14 else v) = 14 ∨ (if v = 16 then 14 else v) = 15 at this
    simp only [List.mem_cons, List.not_mem_nil, or_false]
    split at this <;> omega

theorem loop_lv15 : loopCode.LvOk 15 := by
  obtain ⟨m, h1, h2⟩ := flags_of_sets loop_ok (by decide) (vs := [15]) (by decide) (by decide)
  have e : ((Verif.Model.LiveSets.computeSets loopCode.g.ins 4 ([15].map fun v => ⟨v, loopCode.db v, loopCode.uses v⟩)).map fun m =>
    [0, 1, 2].map fun b => Verif.Model.LiveSets.liveState m b 15) = some ([0, 1, 2].map fun b => some (loopCode.lv b 15)) := by decide +kernel
  have h1' : Verif.Model.LiveSets.computeSets loopCode.g.ins 4 ([15].map fun v => ⟨v, loopCode.db v, loopCode.uses v⟩) = some m := h1
  rw [h1', Option.map_some, Option.some.injEq] at e
  intro b hb
  have h3 := h2 _ rfl 15 (by decide) b hb
  have h4 : Verif.Model.LiveSets.liveState m b 15 = some (loopCode.lv b 15) := by
    have hb' : b ∈ [0, 1, 2] := by rcases loop_block hb with rfl | rfl | rfl <;> decide
    rw [List.map_inj_left] at e
    exact e b hb'
  simp only [h4] at h3
  exact h3

theorem loop_input : Input loopCode [10, 11, 12, 13, 14, 15, 16] visit where
  code := loop_ok
  nodup := by decide
  values := loop_values
  flags := by
    intro v hv
    by_cases e : v = 15
    · subst e
      exact loop_lv15
    · refine loop_lv ?_
      simp only [List.mem_cons, List.not_mem_nil, or_false] at hv ⊢
      omega
  ops := by
    have : ∀ b, b < 3 → ∀ u, u ∈ loopCode.sched b → ∀ v, v ∈ loopCode.ops u → v ∈ [10, 11, 12, 13, 14, 15, 16] := by decide +kernel
    exact fun b u v hb hu hv => this b hb u hu v hv
  iter := by intro l v; exact mem_visit l v

/-- three registers are enough -/
theorem loop_enough : Enough loopCode loopCls [10, 11, 12, 13, 14, 15, 16] visit 3 (fun _ => true) where
  flagsIn := by
    intro b v hb hv hc hl
    have h1 := (scan_exact (cls := loopCls) loop_input hb (loopCode.sched b).length 0 (by omega) v).2 ⟨hv, hc, hl⟩
    have : ∀ b, b < 3 → ∀ v, v ∈ (before loopCode loopCls (loopCode.endOfBlock loopCls [10, 11, 12, 13, 14, 15, 16] b) ((loopCode.sched b).drop 0)).1 →
      (loopCode.lv b v).inn = true := by decide +kernel
    exact this b hb v h1
  results := by
    intro u
    simp only [loopCode]
    split
    · decide
    · split <;> simp
  iter := by intro l; exact nodup_visit l
  value := by
    intro b v hb ho
    refine (loop_values v).1 ?_
    have hs : loopCode.owner v ∈ loopCode.sched (loopCode.block (loopCode.owner v)) := by
      rw [mem_block loop_ok hb ho]; exact ho
    have := loop_sched hs
    change (if v = 16 then 14 else v) = 10 ∨ (if v = 16 then 14 else v) = 11 ∨ (if v = 16 then 14 else v) = 12 ∨ (if v = 16 then 14 else v) = 13 ∨
      (if v = 16 then 14 else v) = 14 ∨ (if v = 16 then 14 else v) = 15 at this
    simp only [List.mem_cons, List.not_mem_nil, or_false]
    split at this <;> omega
  used := by
    intro b i v hb hc hd
    have hk := (List.getElem?_eq_some_iff.1 hd).1
    have : ∀ b, b < 3 → ∀ i, i < (loopCode.sched b).length → ∀ u ∈ (loopCode.sched b)[i]?, ∀ v ∈ defs loopCode loopCls u,
      v ∈ (before loopCode loopCls (loopCode.endOfBlock loopCls [10, 11, 12, 13, 14, 15, 16] b) ((loopCode.sched b).drop (i + 1))).1 := by decide +kernel
    have h1 := this b hb i hk _ hd v ((mem_defs loop_ok).2 ⟨rfl, hc⟩)
    exact ((scan_exact loop_input hb ((loopCode.sched b).length - (i + 1)) (i + 1) (by
      have : i < (loopCode.sched b).length := hk
      omega) v).1 h1).2.2
  pressure := by
    intro b k l hb hl hv
    refine pressure_of_scan loop_input ?_ hb hl hv
    have : ∀ b, b < 3 → ∀ k, k < 5 → (before loopCode loopCls (loopCode.endOfBlock loopCls [10, 11, 12, 13, 14, 15, 16] b) ((loopCode.sched b).drop k)).1.length ≤ 3 := by
      decide +kernel
    intro b k hb hk
    refine this b hb k ?_
    have : ∀ b, b < 3 → (loopCode.sched b).length < 5 := by decide
    have := this b hb
    omega

theorem loop_order : Order loopCode [0, 1, 2] where
  nodup := by decide
  mem := by
    intro b
    have : b < loopCode.g.n ↔ b < 3 := Iff.rfl
    rw [this]
    simp only [List.mem_cons, List.not_mem_nil, or_false]
    omega
  dom := by
    intro pre b post hord d hd hdom hne
    have e1 : loopCode.g.Edge 0 1 := by unfold Cfg.Edge; decide
    rcases pre with _ | ⟨x, _ | ⟨y, _ | ⟨z, pre⟩⟩⟩
    · simp at hord
      obtain ⟨rfl, -⟩ := hord
      have := hdom [0] (.nil 0)
      exact absurd (List.mem_singleton.1 this) hne
    · simp at hord
      obtain ⟨rfl, rfl, -⟩ := hord
      have := hdom [0, 1] (.cons e1 (.nil 1))
      simp only [List.mem_cons, List.not_mem_nil, or_false] at this ⊢
      omega
    · simp at hord
      obtain ⟨rfl, rfl, rfl, -⟩ := hord
      rcases loop_block hd with rfl | rfl | rfl
      · simp
      · simp
      · exact absurd rfl hne
    · simp at hord

example : ∃ reg, color loopCode loopCls [10, 11, 12, 13, 14, 15, 16] visit 3 (fun _ => true) [0, 1, 2] (fun _ => none) = some reg :=
  color_succeeds loop_input loop_enough loop_order fun _ _ _ => rfl

/-- the registers of the loop; with two registers there is no coloring -/
example : (color loopCode loopCls [10, 11, 12, 13, 14, 15, 16] visit 3 (fun _ => true) [0, 1, 2] (fun _ => none)).map
    (fun reg => [10, 11, 12, 13, 14, 16].map reg) = some [some 0, some 1, some 0, some 0, some 2, some 0] ∧
    (color loopCode loopCls [10, 11, 12, 13, 14, 15, 16] visit 2 (fun _ => true) [0, 1, 2] (fun _ => none)).isNone = true := by decide +kernel

/-- two instructions with results that nobody uses -/
def unusedCode : Code where
  g := ⟨1, 0, 0, fun _ => [], fun _ => [], []⟩
  sched := fun b => if b = 0 then [10, 11] else []
  block := fun _ => 0
  ts := fun u => u
  phi := fun _ => false
  ops := fun _ => []
  owner := fun v => v
  values := fun u => [u]
  edges := fun _ => []
  lv := fun _ _ => ⟨false, false, false⟩

/-- **A result that is not used** keeps its register until the end of the block.  So the hypothesis that each value is used is needed for
`color_succeeds`: at each point at most one register is needed, but the coloring with one register fails. -/
theorem unused_needed : (∀ v b i, ¬ unusedCode.prog.LiveAt v b i) ∧
    (color unusedCode (fun _ => true) [10, 11] visit 1 (fun _ => true) [0] (fun _ => none)).isNone = true := by
  refine ⟨fun v b i hl => ?_, by decide +kernel⟩
  induction hl with
  | use hu =>
    obtain ⟨u, -, -, h3⟩ := hu
    exact nomatch h3
  | step _ _ _ ih => exact ih
  | phi hp =>
    obtain ⟨_, _, _, _, h2, _⟩ := hp
    exact nomatch h2
  | edge _ _ ih => exact ih

end Verif.Props.Chordal
