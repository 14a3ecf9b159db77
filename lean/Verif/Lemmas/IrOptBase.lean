import Verif.Lemmas.IrOptAttr
import Verif.Model.IrOptBase
import Verif.Lemmas.ConstBits
/-!
# Lemmas about the views and helper predicates of iropt.c
-/
namespace Verif.Model.IrOpt
open Verif.Spec

variable {m k : IMode} {env : Env}

/-! ## views -/
section views
variable (e : Expr m)
@[irview] theorem asConst_iff (v) : asConst e = some v ↔ e = .const v := by cases e <;> simp [asConst]
@[irview] theorem asMinus_iff (a) : asMinus e = some a ↔ e = .minus a := by cases e <;> simp [asMinus]
@[irview] theorem asNot_iff (a) : asNot e = some a ↔ e = .not a := by cases e <;> simp [asNot]
@[irview] theorem asAdd_iff (p) : asAdd e = some p ↔ e = .add p.1 p.2 := by cases e <;> simp [asAdd, Prod.ext_iff]
@[irview] theorem asSub_iff (p) : asSub e = some p ↔ e = .sub p.1 p.2 := by cases e <;> simp [asSub, Prod.ext_iff]
@[irview] theorem asMul_iff (p) : asMul e = some p ↔ e = .mul p.1 p.2 := by cases e <;> simp [asMul, Prod.ext_iff]
@[irview] theorem asDiv_iff (p) : asDiv e = some p ↔ e = .div p.1 p.2 := by cases e <;> simp [asDiv, Prod.ext_iff]
@[irview] theorem asMod_iff (p) : asMod e = some p ↔ e = .mod p.1 p.2 := by cases e <;> simp [asMod, Prod.ext_iff]
@[irview] theorem asAnd_iff (p) : asAnd e = some p ↔ e = .and p.1 p.2 := by cases e <;> simp [asAnd, Prod.ext_iff]
@[irview] theorem asOr_iff (p) : asOr e = some p ↔ e = .or p.1 p.2 := by cases e <;> simp [asOr, Prod.ext_iff]
@[irview] theorem asEor_iff (p) : asEor e = some p ↔ e = .eor p.1 p.2 := by cases e <;> simp [asEor, Prod.ext_iff]
@[irview] theorem asShl_iff (p) : asShl e = some p ↔ e = .shl p.2.1 p.2.2 := by
  obtain ⟨k', x, y⟩ := p
  cases e <;> simp only [asShl, reduceCtorEq, Option.some.injEq]
  constructor
  · intro h; cases h; rfl
  · intro h; cases h; rfl
@[irview] theorem asShr_iff (p) : asShr e = some p ↔ e = .shr p.2.1 p.2.2 := by
  obtain ⟨k', x, y⟩ := p
  cases e <;> simp only [asShr, reduceCtorEq, Option.some.injEq]
  constructor
  · intro h; cases h; rfl
  · intro h; cases h; rfl
@[irview] theorem asShrs_iff (p) : asShrs e = some p ↔ e = .shrs p.2.1 p.2.2 := by
  obtain ⟨k', x, y⟩ := p
  cases e <;> simp only [asShrs, reduceCtorEq, Option.some.injEq]
  constructor
  · intro h; cases h; rfl
  · intro h; cases h; rfl
@[irview] theorem asConv_iff (p) : asConv e = some p ↔ e = .conv m p.2 := by
  obtain ⟨k', x⟩ := p
  cases e <;> simp only [asConv, reduceCtorEq, Option.some.injEq]
  constructor
  · intro h; cases h; rfl
  · intro h; cases h; rfl
@[irview] theorem asMux_iff (p) : asMux e = some p ↔ e = .mux p.1 p.2.1 p.2.2 := by
  cases e <;> simp [asMux, Prod.ext_iff]
@[irview] theorem asConfirm_iff (p) : asConfirm e = some p ↔ e = .confirm p.1 p.2.1 p.2.2 := by
  cases e <;> simp [asConfirm, Prod.ext_iff]
end views

@[irview] theorem asCmp_iff (e : Expr bmode) (p) : asCmp e = some p ↔ e = .cmp p.2.1 p.2.2.1 p.2.2.2 := by
  obtain ⟨k', x, y, z⟩ := p
  cases e <;> simp only [asCmp, reduceCtorEq, Option.some.injEq]
  constructor
  · intro h; cases h; rfl
  · intro h; cases h; rfl

/-! ## rules -/

theorem ruleOk_none (old : Expr m) : RuleOk env old none := by intro e' h; cases h
theorem ruleOk_some {old e : Expr m} (h : Replaces env e old) : RuleOk env old (some e) := by intro e' h'; cases h'; exact h
theorem ruleOk_orElse {old : Expr m} {a : Option (Expr m)} {b : Unit → Option (Expr m)} (ha : RuleOk env old a) (hb : RuleOk env old (b ())) :
    RuleOk env old (a.orElse b) := by
  cases a with
  | none => exact hb
  | some e => exact ha
theorem ruleOk_or {old : Expr m} {a b : Option (Expr m)} (ha : RuleOk env old a) (hb : RuleOk env old b) :
    RuleOk env old (a <|> b) := by
  cases a with
  | none => exact hb
  | some e => exact ha
theorem ruleOk_ite {old : Expr m} {c : Prop} [Decidable c] {a b : Option (Expr m)} (ha : c → RuleOk env old a) (hb : ¬c → RuleOk env old b) :
    RuleOk env old (if c then a else b) := by
  split
  · next h => exact ha h
  · next h => exact hb h

theorem Replaces.refl (e : Expr m) : Replaces env e e := fun h => ⟨rfl, h⟩
theorem Replaces.trans {a b c : Expr m} (h1 : Replaces env a b) (h2 : Replaces env b c) : Replaces env a c :=
  fun h => ⟨(h1 (h2 h).2).1.trans (h2 h).1, (h1 (h2 h).2).2⟩

theorem bmode_valid : bmode.Valid := by
  refine ⟨by decide, by decide, by decide, Or.inl rfl⟩

/-- the mode of a well-formed expression is valid -/
theorem ok_valid {m : IMode} : (e : Expr m) → e.Ok env → m.Valid
  | .leaf _ _, h => h
  | .const _, h => h
  | .minus a, h => ok_valid a h
  | .not a, h => ok_valid a h
  | .add a _, h => ok_valid a h.1
  | .sub a _, h => ok_valid a h.1
  | .mul a _, h => ok_valid a h.1
  | .div a _, h => ok_valid a h.1
  | .mod a _, h => ok_valid a h.1
  | .and a _, h => ok_valid a h.1
  | .or a _, h => ok_valid a h.1
  | .eor a _, h => ok_valid a h.1
  | .shl a _, h => ok_valid a h.1
  | .shr a _, h => ok_valid a h.1
  | .shrs a _, h => ok_valid a h.1
  | .conv _ _, h => h.2
  | .cmp _ _ _, _ => bmode_valid
  | .mux _ f _, h => ok_valid f h.2.1
  | .confirm v _ _, h => ok_valid v h.1

theorem ok_pos {e : Expr m} (h : e.Ok env) : 0 < m.bits := (ok_valid e h).1

/-! ## known bits -/
section describes
variable {w : Nat} {z o v : BitVec w}
theorem describes_iff : Describes z o v ↔ v &&& z = v ∧ v ||| o = v := by
  constructor
  · intro h
    constructor <;> apply BitVec.eq_of_getLsbD_eq <;> intro i hi <;> have := h i hi <;>
      simp only [BitVec.getLsbD_and, BitVec.getLsbD_or] <;>
      cases h1 : v.getLsbD i <;> cases h2 : z.getLsbD i <;> cases h3 : o.getLsbD i <;> simp_all
  · rintro ⟨h1, h2⟩ i hi
    have h1 := congrArg (·.getLsbD i) h1
    have h2 := congrArg (·.getLsbD i) h2
    simp only [BitVec.getLsbD_and, BitVec.getLsbD_or] at h1 h2
    cases h1' : v.getLsbD i <;> cases h2' : z.getLsbD i <;> cases h3' : o.getLsbD i <;> simp_all

/-- no bit in common -/
theorem describes_disjoint {z' o' v' : BitVec w} (h : Describes z o v) (h' : Describes z' o' v') (hz : z &&& z' = 0#w) : v &&& v' = 0#w := by
  rw [← (describes_iff.1 h).1, ← (describes_iff.1 h').1]
  apply BitVec.eq_of_getLsbD_eq
  intro i hi
  have hz := congrArg (·.getLsbD i) hz
  simp only [BitVec.getLsbD_and, BitVec.getLsbD_zero] at hz ⊢
  cases h1' : v.getLsbD i <;> cases h2' : z.getLsbD i <;> cases h3' : v'.getLsbD i <;> cases h4 : z'.getLsbD i <;> simp_all

theorem xor_eq_or_of_and_eq_zero {x y : BitVec w} (h : x &&& y = 0#w) : x ^^^ y = x ||| y := by
  apply BitVec.eq_of_getLsbD_eq
  intro i hi
  have hz := congrArg (·.getLsbD i) h
  simp only [BitVec.getLsbD_and, BitVec.getLsbD_zero, BitVec.getLsbD_xor, BitVec.getLsbD_or] at hz ⊢
  cases h1' : x.getLsbD i <;> cases h2' : y.getLsbD i <;> simp_all
end describes

/-! ## lowest and highest bit -/
section bits
variable {w : Nat} (v : BitVec w)

theorem lowestBit_cases : (lowestBit v = -1 ∧ v = 0#w) ∨
    ∃ i : Nat, lowestBit v = i ∧ i < w ∧ v.getLsbD i = true ∧ ∀ j < i, v.getLsbD j = false := by
  unfold lowestBit
  cases h : (List.range w).find? (fun i => v.getLsbD i) with
  | none =>
    left
    refine ⟨rfl, ?_⟩
    apply BitVec.eq_of_getLsbD_eq
    intro i hi
    have := List.find?_eq_none.1 h i (List.mem_range.2 hi)
    simpa using this
  | some i =>
    right
    obtain ⟨h1, h2, h3⟩ := List.find?_range_eq_some.1 h
    refine ⟨i, rfl, List.mem_range.1 h2, h1, ?_⟩
    intro j hj
    have := h3 j hj
    simpa using this

theorem highestBit_cases : (highestBit v = -1 ∧ v = 0#w) ∨
    ∃ i : Nat, highestBit v = i ∧ i < w ∧ v.getLsbD i = true ∧ ∀ j, i < j → v.getLsbD j = false := by
  unfold highestBit
  cases h : (List.range w).reverse.find? (fun i => v.getLsbD i) with
  | none =>
    left
    refine ⟨rfl, ?_⟩
    apply BitVec.eq_of_getLsbD_eq
    intro i hi
    have := List.find?_eq_none.1 h i (by simp [hi])
    simpa using this
  | some i =>
    right
    have hp := List.find?_some h
    have hm := List.mem_of_find?_eq_some h
    simp only [List.mem_reverse, List.mem_range] at hm
    refine ⟨i, rfl, hm, hp, ?_⟩
    intro j hj
    by_cases hjw : j < w
    · rw [List.find?_eq_some_iff_getElem] at h
      obtain ⟨_, n, hn, he, hlt⟩ := h
      simp only [List.length_reverse, List.length_range] at hn
      simp only [List.getElem_reverse, List.length_range, List.getElem_range] at he
      have := hlt (w - 1 - j) (by omega)
      simp only [List.getElem_reverse, List.length_range, List.getElem_range] at this
      rw [show w - 1 - (w - 1 - j) = j by omega] at this
      simpa using this
    · exact BitVec.getLsbD_of_ge v j (by omega)

theorem highestBit_lt {n : Nat} : highestBit v < n ↔ ∀ j, n ≤ j → v.getLsbD j = false := by
  rcases highestBit_cases v with ⟨h1, h2⟩ | ⟨i, h1, h2, h3, h4⟩
  · rw [h1, h2]; simp; omega
  · rw [h1]
    constructor
    · intro h j hj; exact h4 j (by omega)
    · intro h
      by_cases hin : i < n
      · omega
      · have := h i (by omega); rw [h3] at this; cases this

theorem highestBit_ge : -1 ≤ highestBit v := by
  rcases highestBit_cases v with ⟨h1, h2⟩ | ⟨i, h1, h2, h3, h4⟩ <;> omega
end bits

/-! ## Or, Eor and Add that mean the same -/

@[irview] theorem asOrEorAdd_iff (e : Expr m) (p) : asOrEorAdd e = some p ↔ e = .or p.1 p.2 ∨ e = .eor p.1 p.2 ∨ e = .add p.1 p.2 := by
  cases e <;> simp [asOrEorAdd, Prod.ext_iff]
@[irview] theorem asEorAdd_iff (e : Expr m) (p) : asEorAdd e = some p ↔ e = .eor p.1 p.2 ∨ e = .add p.1 p.2 := by
  cases e <;> simp [asEorAdd, Prod.ext_iff]

theorem disjoint_sound {C : Ctx} (S : C.Sound env) {l r : Expr m} (hl : l.Ok env) (hr : r.Ok env) (h : disjoint C l r = true) :
    l.eval env &&& r.eval env = 0#m.bits := by
  unfold disjoint at h
  split at h
  · next bl br h1 h2 =>
    exact describes_disjoint (S.bi l bl hl h1) (S.bi r br hr h2) (by simpa using h)
  · cases h

theorem orEorAdd_some {C : Ctx} {e l r : Expr m} (h : orEorAdd C e = some (l, r)) :
    (e = .or l r ∨ e = .eor l r ∨ e = .add l r) ∧ disjoint C l r = true := by
  unfold orEorAdd at h
  simp only [Option.bind_eq_bind, Option.bind_eq_some_iff] at h
  obtain ⟨⟨l', r'⟩, h1, h2⟩ := h
  split at h2
  · next hd => cases h2; exact ⟨(asOrEorAdd_iff e _).1 h1, hd⟩
  · cases h2

theorem orEorAdd_sound {C : Ctx} (S : C.Sound env) {e l r : Expr m} (he : e.Ok env) (h : orEorAdd C e = some (l, r)) :
    l.Ok env ∧ r.Ok env ∧ e.eval env = l.eval env ||| r.eval env ∧ e.eval env = l.eval env ^^^ r.eval env ∧
      e.eval env = l.eval env + r.eval env ∧ l.eval env &&& r.eval env = 0#m.bits := by
  obtain ⟨h1, hd⟩ := orEorAdd_some h
  have hok : l.Ok env ∧ r.Ok env := by rcases h1 with rfl | rfl | rfl <;> exact he
  have h0 := disjoint_sound S hok.1 hok.2 hd
  have ha := BitVec.add_eq_or_of_and_eq_zero _ _ h0
  have hx := xor_eq_or_of_and_eq_zero h0
  refine ⟨hok.1, hok.2, ?_⟩
  rcases h1 with rfl | rfl | rfl <;> simp only [Expr.eval] <;> simp only [ha, hx, h0, and_self]

theorem xor_intMin {w : Nat} (x : BitVec w) : x ^^^ BitVec.intMin w = x + BitVec.intMin w := by
  rcases Nat.eq_zero_or_pos w with hw | hw
  · subst hw; exact Subsingleton.elim _ _
  · have h2 : BitVec.intMin w + BitVec.intMin w = 0#w := by
      apply BitVec.eq_of_toNat_eq
      have hp : 2 ^ w = 2 ^ (w - 1) * 2 := by rw [← Nat.pow_succ]; congr 1; omega
      simp only [BitVec.toNat_add, BitVec.toNat_ofNat, BitVec.intMin, BitVec.toNat_twoPow]
      have : 2 ^ (w - 1) < 2 ^ w := Nat.pow_lt_pow_right (by omega) (by omega)
      rw [Nat.mod_eq_of_lt this, hp]
      have : 2 ^ (w - 1) + 2 ^ (w - 1) = 2 ^ (w - 1) * 2 := by omega
      rw [this]; simp
    have hbit : ∀ i < w, (BitVec.intMin w).getLsbD i = decide (i = w - 1) := by
      intro i hi
      simp only [BitVec.intMin, BitVec.getLsbD_twoPow]
      by_cases h : w - 1 = i <;> simp [h, hi] <;> omega
    cases hm : x.msb
    · have h0 : x &&& BitVec.intMin w = 0#w := by
        apply BitVec.eq_of_getLsbD_eq
        intro i hi
        rw [BitVec.getLsbD_and, hbit i hi, BitVec.getLsbD_zero]
        by_cases h : i = w - 1
        · subst h; rw [← BitVec.msb_eq_getLsbD_last, hm]; rfl
        · simp [h]
      rw [xor_eq_or_of_and_eq_zero h0, BitVec.add_eq_or_of_and_eq_zero _ _ h0]
    · have h0 : (x ^^^ BitVec.intMin w) &&& BitVec.intMin w = 0#w := by
        apply BitVec.eq_of_getLsbD_eq
        intro i hi
        rw [BitVec.getLsbD_and, BitVec.getLsbD_xor, hbit i hi, BitVec.getLsbD_zero]
        by_cases h : i = w - 1
        · subst h; rw [← BitVec.msb_eq_getLsbD_last, hm]; simp
        · simp [h]
      have h1 := BitVec.add_eq_or_of_and_eq_zero _ _ h0
      rw [← xor_eq_or_of_and_eq_zero h0, BitVec.xor_assoc, BitVec.xor_self, BitVec.xor_zero] at h1
      conv_rhs => rw [← h1, BitVec.add_assoc, h2, BitVec.add_zero]

theorem topOnly_value {w : Nat} (hw : 0 < w) {z o v : BitVec w} (h : Describes z o v) (hz : lowestBit z = (w : Int) - 1) :
    v = 0#w ∨ v = BitVec.intMin w := by
  rcases lowestBit_cases z with ⟨h1, h2⟩ | ⟨i, h1, h2, h3, h4⟩
  · omega
  · have hi : i = w - 1 := by omega
    subst hi
    have hv : ∀ j < w, j ≠ w - 1 → v.getLsbD j = false := by
      intro j hj hne
      cases hvj : v.getLsbD j
      · rfl
      · have := (h j hj).1 hvj
        rw [h4 j (by omega)] at this
        cases this
    have hbit : ∀ i < w, (BitVec.intMin w).getLsbD i = decide (i = w - 1) := by
      intro i hi
      simp only [BitVec.intMin, BitVec.getLsbD_twoPow]
      by_cases h : w - 1 = i <;> simp [h, hi] <;> omega
    cases hm : v.getLsbD (w - 1)
    · left
      apply BitVec.eq_of_getLsbD_eq
      intro j hj
      by_cases hjw : j = w - 1
      · subst hjw; rw [hm]; simp
      · rw [hv j hj hjw]; simp
    · right
      apply BitVec.eq_of_getLsbD_eq
      intro j hj
      rw [hbit j hj]
      by_cases hjw : j = w - 1
      · subst hjw; rw [hm]; simp
      · rw [hv j hj hjw]; simp [hjw]

theorem topOnly_sound {C : Ctx} (S : C.Sound env) {e : Expr m} (he : e.Ok env) (h : topOnly C e = true) :
    e.eval env = 0#m.bits ∨ e.eval env = BitVec.intMin m.bits := by
  unfold topOnly at h
  split at h
  · next b hb => exact topOnly_value (ok_pos he) (S.bi e b he hb) (by simpa using h)
  · cases h

theorem add_eq_xor_of_top {w : Nat} {x y : BitVec w} (h : y = 0#w ∨ y = BitVec.intMin w) : x + y = x ^^^ y := by
  rcases h with rfl | rfl
  · simp
  · exact (xor_intMin x).symm

theorem add_eq_xor_of_top' {w : Nat} {x y : BitVec w} (h : x = 0#w ∨ x = BitVec.intMin w) : x + y = x ^^^ y := by
  rw [BitVec.add_comm, BitVec.xor_comm]; exact add_eq_xor_of_top h

theorem eorAdd_sound {C : Ctx} (S : C.Sound env) {e l r : Expr m} (he : e.Ok env) (h : eorAdd C e = some (l, r)) :
    l.Ok env ∧ r.Ok env ∧ e.eval env = l.eval env ^^^ r.eval env ∧ e.eval env = l.eval env + r.eval env := by
  unfold eorAdd at h
  cases h1 : orEorAdd C e with
  | some p =>
    rw [h1] at h
    cases h
    have := orEorAdd_sound S he h1
    exact ⟨this.1, this.2.1, this.2.2.2.1, this.2.2.2.2.1⟩
  | none =>
    rw [h1] at h
    simp only [Option.orElse_eq_orElse, Option.orElse_none, Option.bind_eq_bind, Option.bind_eq_some_iff, irview] at h
    obtain ⟨⟨l', r'⟩, h1, h2⟩ := h
    split at h2
    · next hd =>
      simp only [Option.some.injEq, Prod.mk.injEq] at h2
      obtain ⟨e1, e2⟩ := h2
      subst e1 e2
      have hok : l'.Ok env ∧ r'.Ok env := by rcases h1 with rfl | rfl <;> exact he
      have hx : l'.eval env + r'.eval env = l'.eval env ^^^ r'.eval env := by
        simp only [Bool.and_eq_true, Bool.or_eq_true] at hd
        rcases hd.2 with h | h
        · exact add_eq_xor_of_top' (topOnly_sound S hok.1 h)
        · exact add_eq_xor_of_top (topOnly_sound S hok.2 h)
      refine ⟨hok.1, hok.2, ?_⟩
      rcases h1 with rfl | rfl <;> simp only [Expr.eval] <;> simp only [hx, and_self]
    · cases h2

theorem orLike_sound {C : Ctx} (S : C.Sound env) {e l r : Expr m} (he : e.Ok env) (h : orLike C e = some (l, r)) :
    l.Ok env ∧ r.Ok env ∧ e.eval env = l.eval env ||| r.eval env := by
  unfold orLike at h
  cases h1 : asOr e with
  | some p => rw [h1] at h; cases h; rw [asOr_iff] at h1; subst h1; exact ⟨he.1, he.2, rfl⟩
  | none => rw [h1] at h; have := orEorAdd_sound S he h; exact ⟨this.1, this.2.1, this.2.2.1⟩

theorem addLike_sound {C : Ctx} (S : C.Sound env) {e l r : Expr m} (he : e.Ok env) (h : addLike C e = some (l, r)) :
    l.Ok env ∧ r.Ok env ∧ e.eval env = l.eval env + r.eval env := by
  unfold addLike at h
  cases h1 : asAdd e with
  | some p => rw [h1] at h; cases h; rw [asAdd_iff] at h1; subst h1; exact ⟨he.1, he.2, rfl⟩
  | none => rw [h1] at h; have := orEorAdd_sound S he h; exact ⟨this.1, this.2.1, this.2.2.2.2.1⟩

theorem eorLike_sound {C : Ctx} (S : C.Sound env) {e l r : Expr m} (he : e.Ok env) (h : eorLike C e = some (l, r)) :
    l.Ok env ∧ r.Ok env ∧ e.eval env = l.eval env ^^^ r.eval env := by
  unfold eorLike at h
  cases h1 : asEor e with
  | some p => rw [h1] at h; cases h; rw [asEor_iff] at h1; subst h1; exact ⟨he.1, he.2, rfl⟩
  | none => rw [h1] at h; have := eorAdd_sound S he h; exact ⟨this.1, this.2.1, this.2.2.1⟩

theorem otherOp_some {l r x y : Expr m} (h : otherOp l r x = some y) : (l = x ∧ r = y) ∨ (r = x ∧ l = y) := by
  unfold otherOp at h
  split at h
  · next h1 => cases h; exact Or.inl ⟨h1, rfl⟩
  · split at h
    · next h1 => cases h; exact Or.inr ⟨h1, rfl⟩
    · cases h

@[irview] theorem isNull_iff (e : Expr m) : isNull e = true ↔ e = .const 0#m.bits := by simp [isNull, irview]
@[irview] theorem isOne_iff (e : Expr m) : isOne e = true ↔ e = .const 1#m.bits := by simp [isOne, irview]
@[irview] theorem isAllOne_iff (e : Expr m) : isAllOne e = true ↔ e = .const (BitVec.allOnes m.bits) := by simp [isAllOne, irview]

/-! ## complement and negation -/

theorem not_eq_xor {w : Nat} (x : BitVec w) : ~~~x = x ^^^ BitVec.allOnes w := by simp

theorem complementDirect_sound {a b : Expr m} (h : complementDirect a b = true) : b.eval env = ~~~(a.eval env) := by
  unfold complementDirect at h
  simp only [Bool.or_eq_true, decide_eq_true_eq, irview] at h
  rcases h with (h | h) | h
  · subst h; simp [Expr.eval]
  · subst h; simp [Expr.eval]
  · split at h
    · next x y h1 h2 =>
      rw [asConst_iff] at h1 h2
      subst h1; subst h2
      simp only [decide_eq_true_eq] at h
      simp only [Expr.eval, not_eq_xor]
      rw [← h, ← BitVec.xor_assoc, BitVec.xor_self, BitVec.zero_xor]
    · cases h

theorem complementValues_sound {a b : Expr m} (h : complementValues a b = true) : b.eval env = ~~~(a.eval env) := by
  unfold complementValues at h
  have hd := complementDirect_sound (env := env) h
  unfold stripEor at hd
  split at hd
  · next al ar bl br h1 h2 =>
    rw [asEor_iff] at h1 h2
    simp only at h1 h2
    subst h1; subst h2
    split at hd
    · next he =>
      subst he
      simp only [Expr.eval, hd, not_eq_xor, BitVec.xor_assoc]
    · exact hd
  · exact hd

theorem isNegatedValue_sound {a b : Expr m} (h : isNegatedValue a b = true) : b.eval env = -(a.eval env) := by
  unfold isNegatedValue at h
  simp only [Bool.or_eq_true, decide_eq_true_eq, irview] at h
  rcases h with (h | h) | h
  · subst h; simp [Expr.eval]
  · subst h; simp [Expr.eval]
  · split at h
    · next al ar bl br h1 h2 =>
      rw [asSub_iff] at h1 h2
      simp only at h1 h2
      subst h1; subst h2
      simp only [Bool.and_eq_true, decide_eq_true_eq] at h
      obtain ⟨rfl, rfl⟩ := h
      simp only [Expr.eval]
      rw [BitVec.neg_sub, BitVec.sub_eq_add_neg, BitVec.add_comm]
    · cases h

/-! ## relations -/

/-- the index of the outcome of a comparison -/
def oix (x y : Int) : Nat := if x = y then 0 else if x < y then 1 else 2

theorem oix_lt (x y : Int) : oix x y < 3 := by unfold oix; split; omega; split <;> omega

theorem relHolds_oix (r : BitVec 4) (x y : Int) : relHolds r x y = r.getLsbD (oix x y) := by
  unfold relHolds oix
  rcases Int.lt_trichotomy x y with h | h | h
  · have h1 : ¬ x = y := by omega
    have h2 : ¬ y < x := by omega
    simp [h, h1, h2]
  · subst h; simp
  · have h1 : ¬ x = y := by omega
    have h2 : ¬ x < y := by omega
    simp [h, h1, h2]

theorem relHolds_and (r s : BitVec 4) (x y : Int) : relHolds (r &&& s) x y = (relHolds r x y && relHolds s x y) := by
  simp [relHolds_oix]
theorem relHolds_or (r s : BitVec 4) (x y : Int) : relHolds (r ||| s) x y = (relHolds r x y || relHolds s x y) := by
  simp [relHolds_oix]
theorem relHolds_xor (r s : BitVec 4) (x y : Int) : relHolds (r ^^^ s) x y = (relHolds r x y ^^ relHolds s x y) := by
  simp [relHolds_oix]
theorem relHolds_not (r : BitVec 4) (x y : Int) : relHolds (~~~r) x y = !relHolds r x y := by
  have := oix_lt x y
  simp [relHolds_oix, show oix x y < 4 by omega]
theorem relHolds_true (x y : Int) : relHolds Rel.true x y = true := by
  have := oix_lt x y
  simp only [relHolds_oix, Rel.true]
  have : oix x y = 0 ∨ oix x y = 1 ∨ oix x y = 2 := by omega
  rcases this with h | h | h <;> rw [h] <;> rfl
theorem relHolds_false (x y : Int) : relHolds Rel.false x y = false := by simp [relHolds_oix, Rel.false]
theorem relHolds_leg (x y : Int) : relHolds Rel.lessEqualGreater x y = true := by
  have := oix_lt x y
  simp only [relHolds_oix, Rel.lessEqualGreater]
  have : oix x y = 0 ∨ oix x y = 1 ∨ oix x y = 2 := by omega
  rcases this with h | h | h <;> rw [h] <;> rfl
theorem relHolds_equal (x y : Int) : relHolds Rel.equal x y = decide (x = y) := by
  simp [relHolds, Rel.equal]
theorem relHolds_less (x y : Int) : relHolds Rel.less x y = decide (x < y) := by
  simp [relHolds, Rel.less]
theorem relHolds_greater (x y : Int) : relHolds Rel.greater x y = decide (y < x) := by
  simp [relHolds, Rel.greater]
theorem relHolds_unordered (x y : Int) : relHolds Rel.unordered x y = false := by
  simp [relHolds, Rel.unordered]
theorem relHolds_lessEqual (x y : Int) : relHolds Rel.lessEqual x y = decide (x ≤ y) := by
  simp only [relHolds, Rel.lessEqual]
  by_cases h1 : x = y <;> by_cases h2 : x < y <;> simp [h1, h2] <;> omega
theorem relHolds_greaterEqual (x y : Int) : relHolds Rel.greaterEqual x y = decide (y ≤ x) := by
  simp only [relHolds, Rel.greaterEqual]
  by_cases h1 : x = y <;> by_cases h2 : y < x <;> simp [h1, h2] <;> omega
theorem relHolds_lessGreater (x y : Int) : relHolds Rel.lessGreater x y = decide (x ≠ y) := by
  simp only [relHolds, Rel.lessGreater]
  by_cases h1 : x = y
  · subst h1; simp
  · by_cases h2 : x < y <;> simp [h1, h2] <;> omega
theorem relHolds_inversed (r : BitVec 4) (x y : Int) : relHolds (Rel.inversed r) x y = relHolds r y x := by
  have h : ∀ r : BitVec 4, (Rel.inversed r).getLsbD 0 = r.getLsbD 0 ∧ (Rel.inversed r).getLsbD 1 = r.getLsbD 2 ∧
    (Rel.inversed r).getLsbD 2 = r.getLsbD 1 := by decide
  obtain ⟨h0, h1, h2⟩ := h r
  unfold relHolds
  rw [h0, h1, h2]
  have : decide (x = y) = decide (y = x) := by simp [eq_comm]
  rw [this, Bool.or_assoc, Bool.or_assoc, Bool.or_comm (r.getLsbD 2 && _)]
theorem relHolds_negated (r : BitVec 4) (x y : Int) : relHolds (Rel.negated r) x y = !relHolds r x y := by
  unfold Rel.negated
  rw [relHolds_xor, relHolds_true, Bool.xor_true]

theorem num_eq (m : IMode) (v : BitVec m.bits) : m.num v = BitInfo.num m.signed v := rfl

theorem num_inj {m : IMode} {v w : BitVec m.bits} : m.num v = m.num w ↔ v = w := by
  unfold IMode.num
  split
  · exact BitVec.toInt_inj
  · rw [Int.natCast_inj]; exact BitVec.toNat_inj

theorem relHolds_tvCmp (m : IMode) (x y : BitVec m.bits) : relHolds (BitInfo.tvCmp m.signed x y) (m.num x) (m.num y) = true := by
  unfold BitInfo.tvCmp
  rw [num_eq, num_eq]
  split
  · next h => rw [relHolds_equal]; simpa using h
  · split
    · next h => rw [relHolds_less]; simpa using h
    · next h1 h2 => rw [relHolds_greater]; simp only [decide_eq_true_eq]; omega

theorem tvCmp_eq (m : IMode) (r : Rel) (x y : BitVec m.bits) :
    (BitInfo.tvCmp m.signed x y &&& r = 0#4) ↔ relHolds r (m.num x) (m.num y) = false := by
  unfold BitInfo.tvCmp
  rw [num_eq, num_eq, relHolds_oix]
  unfold oix
  have h : ∀ r : Rel, (Rel.equal &&& r = 0#4 ↔ r.getLsbD 0 = false) ∧ (Rel.less &&& r = 0#4 ↔ r.getLsbD 1 = false) ∧
      (Rel.greater &&& r = 0#4 ↔ r.getLsbD 2 = false) := by decide
  obtain ⟨h0, h1, h2⟩ := h r
  split
  · exact h0
  · split
    · exact h1
    · exact h2

/-! ## a value that is not zero -/

theorem num_zero (m : IMode) : m.num 0#m.bits = 0 := by unfold IMode.num; split <;> simp

theorem confirmsNonZero_sound {m : IMode} {r : Rel} {c v : BitVec m.bits} (h : confirmsNonZero r (BitInfo.tvCmp m.signed c 0#m.bits) = true)
    (hr : relHolds r (m.num v) (m.num c) = true) : v ≠ 0#m.bits := by
  intro hv
  subst hv
  rw [num_zero] at hr
  have hc : BitInfo.tvCmp m.signed c 0#m.bits = if m.num c = 0 then Rel.equal else if m.num c < 0 then Rel.less else Rel.greater := by
    unfold BitInfo.tvCmp
    rw [← num_eq, ← num_eq, num_zero]
  rw [hc] at h
  unfold confirmsNonZero at h
  generalize m.num c = x at *
  have hne : Rel.less ≠ Rel.equal ∧ Rel.greater ≠ Rel.equal ∧ Rel.equal ≠ Rel.less ∧ Rel.greater ≠ Rel.less ∧ Rel.equal ≠ Rel.greater ∧ Rel.less ≠ Rel.greater := by decide
  obtain ⟨n1, n2, n3, n4, n5, n6⟩ := hne
  have hx : x = 0 ∨ x < 0 ∨ 0 < x := by omega
  have hrc : (if x = 0 then Rel.equal else if x < 0 then Rel.less else Rel.greater) = if x = 0 then Rel.equal else if x < 0 then Rel.less else Rel.greater := rfl
  split at h
  · next hr' =>
    subst hr'
    rw [relHolds_equal] at hr
    simp only [decide_eq_true_eq] at hr
    subst hr
    simp at h
  split at h
  · next hr' =>
    subst hr'
    rw [relHolds_lessGreater] at hr
    simp only [decide_eq_true_eq] at hr h
    rw [if_neg (fun h => hr h.symm)] at h
    split at h
    · exact n1 h
    · exact n2 h
  split at h
  · next hr' =>
    subst hr'
    rw [relHolds_less] at hr
    simp only [decide_eq_true_eq, Bool.or_eq_true] at hr h
    rw [if_neg (by omega), if_neg (by omega)] at h
    rcases h with h | h
    · exact n4 h
    · exact n2 h
  split at h
  · next hr' =>
    subst hr'
    rw [relHolds_lessEqual] at hr
    simp only [decide_eq_true_eq] at hr h
    split at h
    · exact n3 h
    · rw [if_neg (by omega)] at h
      exact n4 h
  split at h
  · next hr' =>
    subst hr'
    rw [relHolds_greaterEqual] at hr
    simp only [decide_eq_true_eq] at hr h
    split at h
    · exact n5 h
    · rw [if_pos (by omega)] at h
      exact n6 h
  split at h
  · next hr' =>
    subst hr'
    rw [relHolds_greater] at hr
    simp only [decide_eq_true_eq, Bool.or_eq_true] at hr h
    rw [if_neg (by omega), if_pos (by omega)] at h
    rcases h with h | h
    · exact n6 h
    · exact n1 h
  · cases h

theorem biNotNull_sound {C : Ctx} (S : C.Sound env) {e : Expr m} (he : e.Ok env)
    (h : biNotNull C e = true) : e.eval env ≠ 0#m.bits := by
  unfold biNotNull at h
  split at h
  · next b hb =>
    simp only [decide_eq_true_eq] at h
    intro h0
    apply h
    have := (describes_iff.1 (S.bi e b he hb)).2
    rw [h0, BitVec.zero_or] at this
    exact this
  · cases h

theorem valueNotNull_sound {C : Ctx} (S : C.Sound env) {m : IMode} (e : Expr m) (he : e.Ok env) (h : valueNotNull C e = true) :
    e.eval env ≠ 0#m.bits := by
  induction e with
  | minus a ih =>
    simp only [valueNotNull] at h
    have := ih he h
    simp only [Expr.eval]
    intro h0
    apply this
    rwa [BitVec.neg_eq_zero_iff] at h0
  | confirm v r b ihv ihb =>
    simp only [Expr.eval]
    by_cases hb : ∃ c, b = .const c
    · obtain ⟨c, rfl⟩ := hb
      simp only [valueNotNull] at h
      split at h
      · next hc => exact confirmsNonZero_sound hc he.2.2
      · exact ihv he.1 h
    · have hv : valueNotNull C v = true := by
        cases b <;> first | (exact absurd ⟨_, rfl⟩ hb) | (simpa only [valueNotNull] using h)
      exact ihv he.1 hv
  | const c => simp only [valueNotNull, decide_eq_true_eq] at h; exact h
  | _ => exact biNotNull_sound S he (by simpa only [valueNotNull] using h)

/-! ## possible relations -/

theorem biMax_le {m : IMode} (hw : 0 < m.bits) {z o v : BitVec m.bits} (h : Describes z o v) :
    m.num v ≤ m.num (z &&& (o ||| ~~~minOf m)) ∧ m.num (o ||| (z &&& minOf m)) ≤ m.num v := by
  unfold IMode.num minOf
  cases hs : m.signed
  · simp only [Bool.false_eq_true, if_false]
    constructor
    · exact_mod_cast toNat_le (fun i hi hv => by simp [hi, (h i hi).1 hv])
    · exact_mod_cast toNat_le (fun i hi hv => by
        simp at hv; exact (h i hi).2 hv)
  · simp only [if_true]
    have hbit : ∀ i < m.bits, (BitVec.intMin m.bits).getLsbD i = decide (i = m.bits - 1) := by
      intro i hi
      simp only [BitVec.intMin, BitVec.getLsbD_twoPow]
      by_cases h : m.bits - 1 = i <;> simp [h, hi] <;> omega
    -- flipping the sign bit turns the signed order into the unsigned order
    have key : ∀ x y : BitVec m.bits, (∀ i < m.bits, i ≠ m.bits - 1 → x.getLsbD i = true → y.getLsbD i = true) →
        (y.getLsbD (m.bits - 1) = true → x.getLsbD (m.bits - 1) = true) → x.toInt ≤ y.toInt := by
      intro x y h1 h2
      have hx : ∀ x : BitVec m.bits, x.toInt = (x ^^^ BitVec.intMin m.bits).toNat - 2 ^ (m.bits - 1) := by
        intro x
        rw [xor_intMin]
        have hp : 2 ^ m.bits = 2 * 2 ^ (m.bits - 1) := by rw [← Nat.pow_succ']; congr 1; omega
        have h1 : 2 ^ (m.bits - 1) < 2 ^ m.bits := by have := Nat.two_pow_pos (m.bits - 1); omega
        simp only [BitVec.toInt_eq_toNat_cond, BitVec.toNat_add, BitVec.intMin, BitVec.toNat_twoPow]
        rw [Nat.mod_eq_of_lt h1]
        have hlt := x.isLt
        push_cast
        have hp' : ((2 : Int) ^ m.bits) = 2 * 2 ^ (m.bits - 1) := by exact_mod_cast hp
        have e1 : ((2 : Int) ^ (m.bits - 1)) = ((2 ^ (m.bits - 1) : Nat) : Int) := by push_cast; rfl
        rw [hp', e1]
        rw [hp] at hlt ⊢
        generalize 2 ^ (m.bits - 1) = P at *
        split
        · rw [Int.emod_eq_of_lt (by omega) (by omega)]; omega
        · have : ((x.toNat : Int) + P) % (2 * P) = x.toNat + P - 2 * P := by
            rw [← Int.sub_emod_right, Int.emod_eq_of_lt (by omega) (by omega)]
          rw [this]; omega
      rw [hx x, hx y]
      have : (x ^^^ BitVec.intMin m.bits).toNat ≤ (y ^^^ BitVec.intMin m.bits).toNat := by
        apply toNat_le
        intro i hi hv
        rw [BitVec.getLsbD_xor, hbit i hi] at hv ⊢
        by_cases hi' : i = m.bits - 1
        · subst hi'
          simp only [decide_true, Bool.xor_true, Bool.not_eq_true'] at hv ⊢
          cases hy : y.getLsbD (m.bits - 1)
          · rfl
          · rw [h2 hy] at hv; cases hv
        · simp only [hi', decide_false, Bool.xor_false] at hv ⊢
          exact h1 i hi hi' hv
      omega
    constructor
    · apply key
      · intro i hi hne hv
        simp only [BitVec.getLsbD_and, BitVec.getLsbD_or, BitVec.getLsbD_not, hbit i hi, hne, hi, (h i hi).1 hv, decide_true, decide_false, Bool.not_false, Bool.and_true, Bool.or_true]
      · intro hv
        have hi : m.bits - 1 < m.bits := by omega
        simp only [BitVec.getLsbD_and, BitVec.getLsbD_or, BitVec.getLsbD_not, hbit _ hi, hi, decide_true, Bool.not_true, Bool.and_false, Bool.or_false, Bool.and_eq_true] at hv
        exact (h _ hi).2 hv.2
    · apply key
      · intro i hi hne hv
        simp only [BitVec.getLsbD_and, BitVec.getLsbD_or, hbit _ hi, hne, decide_false, Bool.and_false, Bool.or_false] at hv
        exact (h i hi).2 hv
      · intro hv
        have hi : m.bits - 1 < m.bits := by omega
        simp [hbit _ hi, (h _ hi).1 hv]

theorem biRelations_sound {m : IMode} (hw : 0 < m.bits) {bl br : BitInfo m.bits} {x y : BitVec m.bits}
    (hl : Describes bl.z bl.o x) (hr : Describes br.z br.o y) : relHolds (biRelations m bl br) (m.num x) (m.num y) = true := by
  have hL := biMax_le hw hl
  have hR := biMax_le hw hr
  unfold biRelations
  simp only []
  have step : ∀ (p r : Rel) (c : Prop) [Decidable c], relHolds p (m.num x) (m.num y) = true → (c → relHolds r (m.num x) (m.num y) = false) →
      relHolds (if c then p &&& ~~~r else p) (m.num x) (m.num y) = true := by
    intro p r c _ h1 h2
    split
    · next hc => rw [relHolds_and, relHolds_not, h1, h2 hc]; rfl
    · exact h1
  apply step
  · apply step
    · apply step
      · exact relHolds_true _ _
      · intro h
        simp only [Bool.and_eq_true, decide_eq_true_eq] at h
        rw [tvCmp_eq, relHolds_greater] at h
        rw [relHolds_greater]
        simp only [decide_eq_false_iff_not] at h ⊢
        omega
    · intro h
      simp only [Bool.and_eq_true, decide_eq_true_eq] at h
      rw [tvCmp_eq, relHolds_less] at h
      rw [relHolds_less]
      simp only [decide_eq_false_iff_not] at h ⊢
      omega
  · intro h
    rw [relHolds_equal]
    simp only [decide_eq_false_iff_not, num_inj]
    intro hxy
    subst hxy
    simp only [Bool.or_eq_true, decide_eq_true_eq, BitInfo.andnot] at h
    rcases h with h | h <;> replace h := of_decide_eq_true h
    · apply h
      apply BitVec.eq_of_getLsbD_eq
      intro i hi
      simp only [BitVec.getLsbD_and, BitVec.getLsbD_not, BitVec.getLsbD_zero, hi, decide_true, Bool.true_and]
      have h1 := hl i hi
      have h2 := hr i hi
      cases e1 : bl.o.getLsbD i <;> cases e2 : br.z.getLsbD i <;> simp_all
    · apply h
      apply BitVec.eq_of_getLsbD_eq
      intro i hi
      simp only [BitVec.getLsbD_and, BitVec.getLsbD_not, BitVec.getLsbD_zero, hi, decide_true, Bool.true_and]
      have h1 := hl i hi
      have h2 := hr i hi
      cases e1 : br.o.getLsbD i <;> cases e2 : bl.z.getLsbD i <;> simp_all

theorem num_min_le {m : IMode} (hw : 0 < m.bits) (v : BitVec m.bits) : m.num (minOf m) ≤ m.num v := by
  have := (biMax_le (m := m) hw (z := BitVec.allOnes m.bits) (o := 0#m.bits) (v := v) (by intro i hi; simp [hi])).2
  simpa using this

theorem num_le_max {m : IMode} (hw : 0 < m.bits) (v : BitVec m.bits) : m.num v ≤ m.num (maxOf m) := by
  have := (biMax_le (m := m) hw (z := BitVec.allOnes m.bits) (o := 0#m.bits) (v := v) (by intro i hi; simp [hi])).1
  simp only [BitVec.zero_or, BitVec.allOnes_and] at this
  have e : ~~~minOf m = maxOf m := by
    unfold minOf maxOf
    split
    · rw [BitVec.not_eq_neg_add, BitVec.neg_intMin, ← BitVec.intMax_add_one, BitVec.add_sub_cancel]
    · simp
  rw [e] at this
  exact this

theorem andWith_sound {e x : Expr m} (hm : m.signed = false) (h : andWith e x = true) : m.num (e.eval env) ≤ m.num (x.eval env) := by
  unfold andWith at h
  split at h
  · next l r he =>
    rw [asAnd_iff] at he
    subst he
    rw [Option.isSome_iff_exists] at h
    obtain ⟨y, hy⟩ := h
    simp only [Expr.eval, IMode.num, hm, Bool.false_eq_true, if_false]
    rcases otherOp_some hy with ⟨rfl, _⟩ | ⟨rfl, _⟩
    · exact_mod_cast toNat_le (fun i hi hv => by simp at hv; exact hv.1)
    · exact_mod_cast toNat_le (fun i hi hv => by simp at hv; exact hv.2)
  · cases h

theorem confirmRel_sound {l r : Expr m} (hl : l.Ok env) : relHolds (confirmRel l r) (m.num (l.eval env)) (m.num (r.eval env)) = true := by
  unfold confirmRel
  split
  · next v rel b h =>
    rw [asConfirm_iff] at h
    simp only at h
    subst h
    split
    · next hb => subst hb; exact hl.2.2
    · exact relHolds_true _ _
  · exact relHolds_true _ _

theorem possibleRel_sound {C : Ctx} (S : C.Sound env) {l r : Expr m} (hl : l.Ok env) (hr : r.Ok env) :
    relHolds (possibleRel C l r) (m.num (l.eval env)) (m.num (r.eval env)) = true := by
  have hw := ok_pos hl
  have step : ∀ (p r' : Rel) (c : Prop) [Decidable c], relHolds p (m.num (l.eval env)) (m.num (r.eval env)) = true →
      (c → relHolds r' (m.num (l.eval env)) (m.num (r.eval env)) = false) →
      relHolds (if c then p &&& ~~~r' else p) (m.num (l.eval env)) (m.num (r.eval env)) = true := by
    intro p r' c _ h1 h2
    split
    · next hc => rw [relHolds_and, relHolds_not, h1, h2 hc]; rfl
    · exact h1
  have inter : ∀ (p q : Rel), relHolds p (m.num (l.eval env)) (m.num (r.eval env)) = true → relHolds q (m.num (l.eval env)) (m.num (r.eval env)) = true →
      relHolds (p &&& q) (m.num (l.eval env)) (m.num (r.eval env)) = true := by
    intro p q h1 h2; rw [relHolds_and, h1, h2]; rfl
  have cst : ∀ (e : Expr m) (c : BitVec m.bits), asConst e = some c → e.eval env = c := by
    intro e c h; rw [asConst_iff] at h; subst h; rfl
  unfold possibleRel
  split
  · next x y h1 h2 => rw [cst l x h1, cst r y h2]; exact relHolds_tvCmp m x y
  · simp only []
    apply inter
    · apply inter
      · apply step
        · apply step
          · apply inter
            · have base : ∀ p : Rel, relHolds p (m.num (l.eval env)) (m.num (r.eval env)) = true →
                  relHolds (match C.bi l, C.bi r with
                    | some bl, some br => p &&& biRelations m bl br
                    | _, _ => p) (m.num (l.eval env)) (m.num (r.eval env)) = true := by
                intro p hp
                split
                · next bl br h1 h2 =>
                  exact inter _ _ hp (biRelations_sound hw (S.bi l bl hl h1) (S.bi r br hr h2))
                · exact hp
              apply base
              apply step
              · apply step
                · apply step
                  · apply step
                    · have : relHolds (~~~Rel.unordered) (m.num (l.eval env)) (m.num (r.eval env)) = true := by
                        rw [relHolds_not, relHolds_unordered]; rfl
                      refine inter _ _ ?_ this
                      apply step
                      · exact relHolds_true _ _
                      · intro h; subst h; rw [relHolds_lessGreater]; simp
                    · intro h
                      rw [cst l _ h, relHolds_greater]
                      have := num_min_le hw (r.eval env)
                      simp only [decide_eq_false_iff_not]; omega
                  · intro h
                    rw [cst l _ h, relHolds_less]
                    have := num_le_max hw (r.eval env)
                    simp only [decide_eq_false_iff_not]; omega
                · intro h
                  rw [cst r _ h, relHolds_greater]
                  have := num_le_max hw (l.eval env)
                  simp only [decide_eq_false_iff_not]; omega
              · intro h
                rw [cst r _ h, relHolds_less]
                have := num_min_le hw (l.eval env)
                simp only [decide_eq_false_iff_not]; omega
            · exact S.vrp l r hl hr
          · intro h
            simp only [Bool.and_eq_true, Bool.not_eq_true'] at h
            have := andWith_sound (env := env) h.1 h.2
            rw [relHolds_greater]
            simp only [decide_eq_false_iff_not]; omega
        · intro h
          simp only [Bool.and_eq_true, Bool.not_eq_true'] at h
          have := andWith_sound (env := env) h.1 h.2
          rw [relHolds_less]
          simp only [decide_eq_false_iff_not]; omega
      · exact confirmRel_sound hl
    · rw [relHolds_inversed]
      exact confirmRel_sound hr

/-- a relation that agrees on the possible outcomes can be used instead -/
theorem isRelation_sound {rel cr p : Rel} {x y : Int} (h : isRelation rel cr p = true) (hp : relHolds p x y = true) :
    relHolds cr x y = relHolds rel x y := by
  unfold isRelation at h
  simp only [decide_eq_true_eq] at h
  rw [← h, relHolds_or, relHolds_and, relHolds_and, relHolds_not, hp]
  simp

theorem complementaryRel_sound {rel cr p : Rel} {x y : Int} (hne : complementaryRel rel cr p ≠ Rel.false) (hp : relHolds p x y = true) :
    relHolds cr x y = relHolds (complementaryRel rel cr p) x y := by
  unfold complementaryRel at hne ⊢
  split
  · next h => exact isRelation_sound h hp
  · split
    · next h => exact isRelation_sound h hp
    · next h1 h2 => rw [if_neg h1, if_neg h2] at hne; exact absurd rfl hne

theorem complementaryRel_cases (cr p : Rel) : complementaryRel Rel.equal cr p = Rel.equal ∨ complementaryRel Rel.equal cr p = Rel.lessGreater ∨
    complementaryRel Rel.equal cr p = Rel.false := by
  unfold complementaryRel
  split
  · left; rfl
  · split
    · right; left; rfl
    · right; right; rfl

end Verif.Model.IrOpt
