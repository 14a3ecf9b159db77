import Verif.Model.Chordal
import Verif.Props.Interfere
/-!
# Lemmas for the coloring
-/
namespace Verif.Lemmas.Chordal
open Verif.Model.Interfere Verif.Model.Chordal

theorem nodup_rev {l : List Nat} (h : l.Nodup) : l.reverse.Nodup := List.pairwise_reverse.2 (h.imp Ne.symm)

/-! ## The backward scan -/

theorem scanEnd_foldl (l : List Nat) : ∀ s : Scan, l.foldl scanEnd s = (l.reverse ++ s.1, s.2 ++ l.map fun v => ⟨v, false, false⟩) := by
  induction l with
  | nil => intro s; simp
  | cons x l ih => intro s; rw [List.foldl_cons, ih]; simp [scanEnd]

theorem scanDef_foldl (l : List Nat) : ∀ s : Scan, (l.foldl scanDef s).2 = s.2 ++ l.map (fun d => ⟨d, true, true⟩) ∧
    ∀ v, v ∈ (l.foldl scanDef s).1 ↔ v ∈ s.1 ∧ v ∉ l := by
  induction l with
  | nil => intro s; simp
  | cons x l ih =>
    intro s
    rw [List.foldl_cons]
    obtain ⟨h1, h2⟩ := ih (scanDef s x)
    refine ⟨by rw [h1]; simp [scanDef], fun v => ?_⟩
    rw [h2]
    simp only [scanDef, List.mem_filter, decide_eq_true_eq, List.mem_cons, not_or, ne_eq, and_assoc]

/-- the operands that get a border are the new ones -/
theorem scanUse_foldl (l : List Nat) : ∀ s : Scan, ∃ us : List Nat, us.Nodup ∧ (l.foldl scanUse s).2 = s.2 ++ us.map (fun u => ⟨u, false, true⟩) ∧
    (∀ v, v ∈ us ↔ v ∈ l ∧ v ∉ s.1) ∧ ∀ v, v ∈ (l.foldl scanUse s).1 ↔ v ∈ s.1 ∨ v ∈ l := by
  induction l with
  | nil => intro s; exact ⟨[], by simp, by simp, by simp, by simp⟩
  | cons x l ih =>
    intro s
    rw [List.foldl_cons]
    obtain ⟨us, h1, h2, h3, h4⟩ := ih (scanUse s x)
    by_cases hx : x ∈ s.1
    · have e : scanUse s x = s := by simp [scanUse, hx]
      rw [e] at h2 h3 h4 ⊢
      refine ⟨us, h1, h2, fun v => ?_, fun v => ?_⟩
      · rw [h3]
        constructor
        · exact fun h => ⟨List.mem_cons_of_mem _ h.1, h.2⟩
        · rintro ⟨h, h'⟩
          rcases List.mem_cons.1 h with rfl | h
          · exact absurd hx h'
          · exact ⟨h, h'⟩
      · rw [h4]
        constructor
        · rintro (h | h)
          · exact Or.inl h
          · exact Or.inr (List.mem_cons_of_mem _ h)
        · rintro (h | h)
          · exact Or.inl h
          · rcases List.mem_cons.1 h with rfl | h
            · exact Or.inl hx
            · exact Or.inr h
    · have e : scanUse s x = (x :: s.1, s.2 ++ [⟨x, false, true⟩]) := by simp [scanUse, hx]
      rw [e] at h2 h3 h4 ⊢
      refine ⟨x :: us, ?_, ?_, fun v => ?_, fun v => ?_⟩
      · refine List.nodup_cons.2 ⟨fun h => ?_, h1⟩
        exact ((h3 x).1 h).2 (List.mem_cons_self ..)
      · rw [h2]; simp
      · rw [List.mem_cons, h3]
        simp only [List.mem_cons, not_or]
        constructor
        · rintro (rfl | h)
          · exact ⟨Or.inl rfl, hx⟩
          · exact ⟨Or.inr h.1, h.2.2⟩
        · rintro ⟨rfl | h, h'⟩
          · exact Or.inl rfl
          · by_cases hv : v = x
            · exact Or.inl hv
            · exact Or.inr ⟨h, hv, h'⟩
      · rw [h4]
        simp only [List.mem_cons]
        constructor
        · rintro ((h | h) | h)
          · exact Or.inr (Or.inl h)
          · exact Or.inl h
          · exact Or.inr (Or.inr h)
        · rintro (h | h | h)
          · exact Or.inl (Or.inr h)
          · exact Or.inl (Or.inl h)
          · exact Or.inr h

variable {c : Code} {cls : Nat → Bool}

def defs (c : Code) (cls : Nat → Bool) (i : Nat) : List Nat := (c.values i).filter cls

/-- the operands that are read by the instruction itself -/
def uses (c : Code) (cls : Nat → Bool) (i : Nat) : List Nat := if c.phi i then [] else (c.ops i).filter cls

theorem scanIns_spec (i : Nat) (s : Scan) : ∃ us : List Nat, us.Nodup ∧
    (scanIns c cls s i).2 = s.2 ++ (defs c cls i).map (fun d => ⟨d, true, true⟩) ++ us.map (fun u => ⟨u, false, true⟩) ∧
    (∀ v, v ∈ us ↔ v ∈ uses c cls i ∧ ¬ (v ∈ s.1 ∧ v ∉ defs c cls i)) ∧
    ∀ v, v ∈ (scanIns c cls s i).1 ↔ (v ∈ s.1 ∧ v ∉ defs c cls i) ∨ v ∈ uses c cls i := by
  obtain ⟨h1, h2⟩ := scanDef_foldl (defs c cls i) s
  by_cases hp : c.phi i = true
  · have e : scanIns c cls s i = (defs c cls i).foldl scanDef s := by simp [scanIns, hp, defs]
    have e' : uses c cls i = [] := by simp [uses, hp]
    rw [e, e']
    exact ⟨[], by simp, by simp [h1], by simp, by simp [h2]⟩
  · have e : scanIns c cls s i = (uses c cls i).foldl scanUse ((defs c cls i).foldl scanDef s) := by simp [scanIns, hp, defs, uses]
    rw [e]
    obtain ⟨us, g1, g2, g3, g4⟩ := scanUse_foldl (uses c cls i) ((defs c cls i).foldl scanDef s)
    refine ⟨us, g1, by rw [g2, h1], fun v => ?_, fun v => ?_⟩
    · rw [g3, h2]
    · rw [g4, h2]

/-! ## The forward pass -/

/-- the registers of the active values are different, and exactly the others are available -/
structure Inv (alloc : Nat → Bool) (act : List Nat) (s : State) : Prop where
  nodup : act.Nodup
  reg : ∀ v ∈ act, ∃ r, s.reg v = some r ∧ alloc r = true
  inj : ∀ u ∈ act, ∀ v ∈ act, s.reg u = s.reg v → u = v
  avail : ∀ r, s.avail r = true ↔ alloc r = true ∧ ∀ v ∈ act, s.reg v ≠ some r

/-- registers stay as they are -/
def Ext (f g : Nat → Option Nat) : Prop := ∀ v r, f v = some r → g v = some r

theorem Ext.refl (f : Nat → Option Nat) : Ext f f := fun _ _ h => h
theorem Ext.trans {f g h : Nat → Option Nat} (a : Ext f g) (b : Ext g h) : Ext f h := fun v r e => b v r (a v r e)

/-- different registers -/
def Dist (alloc : Nat → Bool) (reg : Nat → Option Nat) (p : Nat → Prop) : Prop :=
  (∀ v, p v → ∃ r, reg v = some r ∧ alloc r = true) ∧ ∀ u v, p u → p v → reg u = reg v → u = v

theorem Dist.mono {alloc : Nat → Bool} {f g : Nat → Option Nat} {p q : Nat → Prop} (h : Dist alloc f p) (e : Ext f g) (hq : ∀ v, q v → p v) :
    Dist alloc g q := by
  refine ⟨fun v hv => ?_, fun u v hu hv he => ?_⟩
  · obtain ⟨r, h1, h2⟩ := h.1 v (hq v hv)
    exact ⟨r, e v r h1, h2⟩
  · obtain ⟨r, h1, h2⟩ := h.1 u (hq u hu)
    obtain ⟨r', h1', h2'⟩ := h.1 v (hq v hv)
    refine h.2 u v (hq u hu) (hq v hv) ?_
    rw [e u r h1, e v r' h1'] at he
    rw [h1, h1', he]

theorem Inv.dist {alloc : Nat → Bool} {act : List Nat} {s : State} (h : Inv alloc act s) : Dist alloc s.reg (· ∈ act) :=
  ⟨h.reg, fun u v hu hv => h.inj u hu v hv⟩

theorem loop_append (n : Nat) (a b : List Border) : ∀ s, assignLoop n (a ++ b) s = (assignLoop n a s).bind (assignLoop n b) := by
  induction a with
  | nil => intro s; rfl
  | cons x a ih =>
    intro s
    simp only [List.cons_append, assignLoop]
    cases assignBorder n s x with
    | none => rfl
    | some t => exact ih t

variable {alloc : Nat → Bool} {n : Nat}

/-- uses of active values -/
theorem uses_run (us : List Nat) (real : Bool) : ∀ {act : List Nat} {s : State}, Inv alloc act s → us.Nodup → (∀ u ∈ us, u ∈ act) →
    ∃ s', assignLoop n (us.map fun u => ⟨u, false, real⟩) s = some s' ∧ s'.reg = s.reg ∧ Inv alloc (act.filter fun v => v ∉ us) s' := by
  induction us with
  | nil =>
    intro act s h _ _
    refine ⟨s, rfl, rfl, ?_⟩
    rw [List.filter_eq_self.2 fun v _ => by simp]
    exact h
  | cons u us ih =>
    intro act s h hn hm
    obtain ⟨r, hr, ha⟩ := h.reg u (hm u (List.mem_cons_self ..))
    have hu := hm u (List.mem_cons_self ..)
    have inv : Inv alloc (act.filter (· ≠ u)) (s.setBit r true) := by
      refine ⟨h.nodup.filter _, fun v hv => h.reg v (List.mem_filter.1 hv).1, fun x hx y hy => h.inj x (List.mem_filter.1 hx).1 y (List.mem_filter.1 hy).1,
        fun q => ?_⟩
      simp only [State.setBit]
      split
      next e =>
        subst e
        refine iff_of_true rfl ⟨ha, fun v hv e => ?_⟩
        obtain ⟨h1, h2⟩ := List.mem_filter.1 hv
        simp only [ne_eq, decide_eq_true_eq] at h2
        exact h2 (h.inj v h1 u hu (e.trans hr.symm))
      next hne =>
        rw [h.avail]
        refine and_congr_right fun _ => ⟨fun hh v hv => hh v (List.mem_filter.1 hv).1, fun hh v hv e => ?_⟩
        by_cases hvu : v = u
        · subst hvu
          rw [hr] at e
          exact hne (Option.some.inj e).symm
        · exact hh v (List.mem_filter.2 ⟨hv, by simpa using hvu⟩) e
    obtain ⟨hnu, hn'⟩ := List.nodup_cons.1 hn
    obtain ⟨s', g1, g2, g3⟩ := ih inv hn' fun v hv => List.mem_filter.2 ⟨hm v (List.mem_cons_of_mem _ hv), by
      simp only [ne_eq, decide_eq_true_eq]
      rintro rfl
      exact hnu hv⟩
    refine ⟨s', ?_, g2, ?_⟩
    · simp only [List.map_cons, assignLoop, assignBorder, Bool.not_false, if_true, hr]
      exact g1
    · rw [List.filter_filter] at g3
      have : (act.filter fun v => v ∉ u :: us) = act.filter fun v => decide (v ∉ us) && decide (v ≠ u) := by
        refine List.filter_congr fun v _ => ?_
        simp only [List.mem_cons, not_or, Bool.decide_and, ne_eq]
        rw [Bool.and_comm]
      rw [this]
      exact g3

/-- one definition -/
theorem def_run {act : List Nat} {s s' : State} {d : Nat} {real : Bool} (h : Inv alloc act s)
    (hs : assignBorder n s ⟨d, true, real⟩ = some s') : Inv alloc (d :: act) s' ∧ Ext s.reg s'.reg ∧ ∀ v, v ≠ d → s'.reg v = s.reg v := by
  simp only [assignBorder, Bool.not_true] at hs
  rw [if_neg (by decide)] at hs
  cases hr : s.reg d with
  | some r =>
    simp only [hr] at hs
    split at hs
    next hav =>
      injection hs with hs
      subst hs
      obtain ⟨h1, h2⟩ := (h.avail r).1 hav
      refine ⟨⟨?_, ?_, ?_, fun q => ?_⟩, Ext.refl _, fun _ _ => rfl⟩
      · exact List.nodup_cons.2 ⟨fun hd => h2 d hd hr, h.nodup⟩
      · intro v hv
        rcases List.mem_cons.1 hv with rfl | hv
        · exact ⟨r, hr, h1⟩
        · exact h.reg v hv
      · intro u hu v hv e
        change s.reg u = s.reg v at e
        rcases List.mem_cons.1 hu with hu' | hu' <;> rcases List.mem_cons.1 hv with hv' | hv'
        · rw [hu', hv']
        · rw [hu'] at e
          exact absurd (e.symm.trans hr) (h2 v hv')
        · rw [hv'] at e
          exact absurd (e.trans hr) (h2 u hu')
        · exact h.inj u hu' v hv' e
      · simp only [State.setBit]
        split
        next e =>
          subst e
          refine iff_of_false (by decide) fun hh => hh.2 d (List.mem_cons_self ..) hr
        next hne =>
          rw [h.avail]
          refine and_congr_right fun _ => ⟨fun hh v hv e => ?_, fun hh v hv => hh v (List.mem_cons_of_mem _ hv)⟩
          rcases List.mem_cons.1 hv with rfl | hv
          · rw [hr] at e
            exact hne (Option.some.inj e).symm
          · exact hh v hv e
    next => exact nomatch hs
  | none =>
    simp only [hr] at hs
    split at hs
    · exact nomatch hs
    cases hf : nextFree n s.avail with
    | none => simp only [hf] at hs; exact nomatch hs
    | some r =>
      simp only [hf] at hs
      injection hs with hs
      subst hs
      have hav := List.find?_some hf
      obtain ⟨h1, h2⟩ := (h.avail r).1 hav
      have hd : d ∉ act := fun hd => by
        obtain ⟨q, hq, _⟩ := h.reg d hd
        rw [hr] at hq
        exact nomatch hq
      have ne : ∀ v ∈ act, v ≠ d := fun v hv e => hd (e ▸ hv)
      have same : ∀ v, v ≠ d → ((s.setReg d r).setBit r false).reg v = s.reg v := fun v hv => by simp [State.setBit, State.setReg, hv]
      have new : ((s.setReg d r).setBit r false).reg d = some r := by simp [State.setBit, State.setReg]
      refine ⟨⟨List.nodup_cons.2 ⟨hd, h.nodup⟩, ?_, ?_, fun q => ?_⟩, ?_, same⟩
      · intro v hv
        rcases List.mem_cons.1 hv with rfl | hv
        · exact ⟨r, new, h1⟩
        · rw [same v (ne v hv)]
          exact h.reg v hv
      · intro u hu v hv e
        rcases List.mem_cons.1 hu with hu' | hu' <;> rcases List.mem_cons.1 hv with hv' | hv'
        · rw [hu', hv']
        · rw [hu', new, same v (ne v hv')] at e
          exact absurd e.symm (h2 v hv')
        · rw [hv', new, same u (ne u hu')] at e
          exact absurd e (h2 u hu')
        · rw [same u (ne u hu'), same v (ne v hv')] at e
          exact h.inj u hu' v hv' e
      · change (if q = r then false else s.avail q) = true ↔ _
        split
        next e =>
          subst e
          refine iff_of_false (by decide) fun hh => hh.2 d (List.mem_cons_self ..) new
        next hne =>
          rw [h.avail]
          refine and_congr_right fun _ => ⟨fun hh v hv e => ?_, fun hh v hv e => ?_⟩
          · rcases List.mem_cons.1 hv with rfl | hv
            · rw [new] at e
              exact hne (Option.some.inj e).symm
            · rw [same v (ne v hv)] at e
              exact hh v hv e
          · exact hh v (List.mem_cons_of_mem _ hv) (by rw [same v (ne v hv)]; exact e)
      · intro v q e
        have : v ≠ d := by
          rintro rfl
          rw [hr] at e
          exact nomatch e
        rw [same v this]
        exact e

/-- several definitions -/
theorem defs_run (ds : List Nat) (real : Bool) : ∀ {act : List Nat} {s s' : State}, Inv alloc act s →
    assignLoop n (ds.map fun d => ⟨d, true, real⟩) s = some s' →
    Inv alloc (ds.reverse ++ act) s' ∧ Ext s.reg s'.reg ∧ ∀ v, v ∉ ds → s'.reg v = s.reg v := by
  induction ds with
  | nil =>
    intro act s s' h hs
    injection hs with hs
    subst hs
    exact ⟨h, Ext.refl _, fun _ _ => rfl⟩
  | cons d ds ih =>
    intro act s s' h hs
    simp only [List.map_cons, assignLoop] at hs
    cases h1 : assignBorder n s ⟨d, true, real⟩ with
    | none => rw [h1] at hs; exact nomatch hs
    | some t =>
      rw [h1] at hs
      obtain ⟨g1, g2, g3⟩ := def_run h h1
      obtain ⟨k1, k2, k3⟩ := ih g1 hs
      refine ⟨?_, g2.trans k2, fun v hv => ?_⟩
      · simpa using k1
      · rw [k3 v fun hh => hv (List.mem_cons_of_mem _ hh), g3 v fun hh => hv (hh ▸ List.mem_cons_self ..)]

/-! ## A block -/

/-- the state of the backward scan before the instructions `is` -/
def before (c : Code) (cls : Nat → Bool) (e : List Nat) (is : List Nat) : Scan :=
  is.foldr (fun i s => scanIns c cls s i) (e.foldl scanEnd ([], []))

/-- the values that need a register at a point -/
def occ (c : Code) (cls : Nat → Bool) (e : List Nat) (is : List Nat) (k v : Nat) : Prop :=
  v ∈ (before c cls e (is.drop k)).1 ∨ ∃ j i, k = j + 1 ∧ is[j]? = some i ∧ v ∈ defs c cls i

theorem before_nil (e : List Nat) : before c cls e [] = (e.reverse, e.map fun v => ⟨v, false, false⟩) := by
  simp only [before, List.foldr_nil, scanEnd_foldl]
  simp

/-- the forward pass over the instructions `is` -/
theorem forward {e : List Nat} (he : e.Nodup) : ∀ (is : List Nat) {act : List Nat} {s s' : State}, Inv alloc act s →
    (∀ v ∈ (before c cls e is).1, v ∈ act) → assignLoop n (before c cls e is).2.reverse s = some s' →
    Ext s.reg s'.reg ∧ (∀ v, (∀ i ∈ is, v ∉ defs c cls i) → s'.reg v = s.reg v) ∧ ∀ k, k ≤ is.length → Dist alloc s'.reg (occ c cls e is k) := by
  intro is
  induction is with
  | nil =>
    intro act s s' h hl hs
    rw [before_nil] at hl hs
    simp only [← List.map_reverse] at hs
    obtain ⟨t, g1, g2, g3⟩ := uses_run (n := n) e.reverse false h (nodup_rev he) hl
    rw [g1] at hs
    injection hs with hs
    subst hs
    rw [g2]
    refine ⟨Ext.refl _, fun _ _ => rfl, fun k hk => ?_⟩
    refine h.dist.mono (Ext.refl _) fun v hv => ?_
    rcases hv with hv | ⟨j, i, _, hj, _⟩
    · rw [List.drop_nil, before_nil] at hv
      exact hl v hv
    · exact nomatch hj
  | cons i is ih =>
    intro act s s' h hl hs
    have e1 : before c cls e (i :: is) = scanIns c cls (before c cls e is) i := rfl
    obtain ⟨us, u1, u2, u3, u4⟩ := scanIns_spec (c := c) (cls := cls) i (before c cls e is)
    rw [e1] at hl hs
    rw [u2] at hs
    rw [List.reverse_append, List.reverse_append, ← List.map_reverse, ← List.map_reverse, loop_append] at hs
    obtain ⟨t, g1, g2, g3⟩ := uses_run (n := n) us.reverse true h (nodup_rev u1) fun u hu => hl u ((u4 u).2 (Or.inr ((u3 u).1 (List.mem_reverse.1 hu)).1))
    rw [g1] at hs
    simp only [Option.bind_some] at hs
    rw [loop_append] at hs
    cases h2 : assignLoop n ((defs c cls i).reverse.map fun d => ⟨d, true, true⟩) t with
    | none => rw [h2] at hs; exact nomatch hs
    | some t' =>
      rw [h2] at hs
      simp only [Option.bind_some] at hs
      obtain ⟨k1, k2, k3⟩ := defs_run _ _ g3 h2
      rw [List.reverse_reverse] at k1
      have sub : ∀ v, v ∈ (before c cls e is).1 ∨ v ∈ defs c cls i → v ∈ defs c cls i ++ act.filter fun v => v ∉ us.reverse := by
        intro v hv
        by_cases hd : v ∈ defs c cls i
        · exact List.mem_append_left _ hd
        · have hv := hv.resolve_right hd
          refine List.mem_append_right _ (List.mem_filter.2 ⟨hl v ((u4 v).2 (Or.inl ⟨hv, hd⟩)), ?_⟩)
          simp only [List.mem_reverse, decide_eq_true_eq, u3]
          exact fun hh => hh.2 ⟨hv, hd⟩
      obtain ⟨m1, m2, m3⟩ := ih k1 (fun v hv => sub v (Or.inl hv)) hs
      rw [g2] at k2 k3
      have e2 : Ext s.reg s'.reg := k2.trans m1
      refine ⟨e2, fun v hv => ?_, fun k hk => ?_⟩
      · rw [m2 v fun j hj => hv j (List.mem_cons_of_mem _ hj), k3 v fun hh => hv i (List.mem_cons_self ..) (List.mem_reverse.1 hh)]
      · cases k with
        | zero =>
          refine h.dist.mono e2 fun v hv => ?_
          rcases hv with hv | ⟨j, _, hj, _⟩
          · rw [List.drop_zero, e1] at hv
            exact hl v hv
          · exact absurd hj (by omega)
        | succ k =>
          cases k with
          | zero =>
            refine k1.dist.mono m1 fun v hv => sub v ?_
            rcases hv with hv | ⟨j, i', hj, hi', hd⟩
            · exact Or.inl (by simpa using hv)
            · obtain rfl : j = 0 := by omega
              simp only [List.getElem?_cons_zero, Option.some.injEq] at hi'
              exact Or.inr (hi' ▸ hd)
          | succ k =>
            refine (m3 (k + 1) (by simpa using hk)).mono (Ext.refl _) fun v hv => ?_
            rcases hv with hv | ⟨j, i', hj, hi', hd⟩
            · exact Or.inl (by simpa using hv)
            · obtain rfl : j = k + 1 := by omega
              exact Or.inr ⟨k, i', rfl, by simpa using hi', hd⟩

theorem inv_start (reg : Nat → Option Nat) : Inv alloc [] ⟨alloc, reg⟩ :=
  ⟨List.nodup_nil, (fun _ h => nomatch h), (fun _ h => nomatch h), fun r => ⟨fun h => ⟨h, (fun _ h => nomatch h)⟩, fun h => h.1⟩⟩

variable {vs : List Nat} {iter : List Nat → List Nat}

theorem foldl_before (b : Nat) : (c.sched b).reverse.foldl (scanIns c cls) ((c.endOfBlock cls vs b).foldl scanEnd ([], [])) =
    before c cls (c.endOfBlock cls vs b) (c.sched b) := by
  rw [List.foldl_reverse]
  rfl

/-- after a block has been visited all values have different registers at each point of the block -/
theorem assign_block (hvs : vs.Nodup) (hit : ∀ l v, v ∈ iter l ↔ v ∈ l) {b : Nat} {borders : List Border} (hb : createBorders c cls vs iter b = some borders)
    {reg reg' : Nat → Option Nat} (ha : assign n alloc borders reg = some reg') :
    Ext reg reg' ∧ (∀ k, k ≤ (c.sched b).length → Dist alloc reg' (occ c cls (c.endOfBlock cls vs b) (c.sched b) k)) ∧
    ∀ v, v ∉ (before c cls (c.endOfBlock cls vs b) (c.sched b)).1 → (∀ i ∈ c.sched b, v ∉ defs c cls i) → reg' v = reg v := by
  simp only [createBorders, foldl_before] at hb
  split at hb
  · injection hb with hb
    subst hb
    simp only [assign, Option.map_eq_some_iff] at ha
    obtain ⟨s', h1, rfl⟩ := ha
    rw [List.reverse_append, loop_append, ← List.map_reverse] at h1
    cases h2 : assignLoop n ((iter (before c cls (c.endOfBlock cls vs b) (c.sched b)).1).reverse.map fun d => ⟨d, true, false⟩) ⟨alloc, reg⟩ with
    | none => rw [h2] at h1; exact nomatch h1
    | some t =>
      rw [h2] at h1
      obtain ⟨k1, k2, k3⟩ := defs_run _ _ (inv_start reg) h2
      obtain ⟨m1, m2, m3⟩ := forward (hvs.filter _) (c.sched b) k1 (fun v hv => List.mem_append_left _ (List.mem_reverse.2 (List.mem_reverse.2 ((hit _ v).2 hv)))) h1
      refine ⟨k2.trans m1, m3, fun v hv hd => ?_⟩
      rw [m2 v hd, k3 v fun hh => hv ((hit _ v).1 (List.mem_reverse.1 hh))]
  · exact nomatch hb

theorem color_ext (hvs : vs.Nodup) (hit : ∀ l v, v ∈ iter l ↔ v ∈ l) : ∀ (order : List Nat) {reg reg' : Nat → Option Nat},
    color c cls vs iter n alloc order reg = some reg' →
    Ext reg reg' ∧ ∀ b ∈ order, ∀ k, k ≤ (c.sched b).length → Dist alloc reg' (occ c cls (c.endOfBlock cls vs b) (c.sched b) k) := by
  intro order
  induction order with
  | nil =>
    intro reg reg' h
    injection h with h
    subst h
    exact ⟨Ext.refl _, fun _ h => nomatch h⟩
  | cons b bs ih =>
    intro reg reg' h
    simp only [color] at h
    cases hb : createBorders c cls vs iter b with
    | none => rw [hb] at h; exact nomatch h
    | some borders =>
      rw [hb] at h
      simp only at h
      cases ha : assign n alloc borders reg with
      | none => rw [ha] at h; exact nomatch h
      | some t =>
        rw [ha] at h
        obtain ⟨g1, g2, -⟩ := assign_block hvs hit hb ha
        obtain ⟨k1, k2⟩ := ih h
        refine ⟨g1.trans k1, fun b' hb' k hk => ?_⟩
        rcases List.mem_cons.1 hb' with rfl | hb'
        · exact (g2 k hk).mono k1 fun _ h => h
        · exact k2 b' hb' k hk

end Verif.Lemmas.Chordal
