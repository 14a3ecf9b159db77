import Verif.Lemmas.Alias
import Verif.Lemmas.AliasExample

/-
Alias analysis (ir/ana/irmemory.c): if get_alias_relation answers "no alias"
then the two accesses have no byte in common.
-/

namespace Verif.Props.Alias

open Spec.Alias Model.Alias Lemmas.Alias

variable {p : Program} {w : Nat}

/-- All constants fit into `long`; true for modes of at most 64 bits. -/
def Longs (p : Program) : Prop :=
  ∀ n v, p.op n = .const v → -(2 ^ 63 : Int) ≤ v ∧ v < 2 ^ 63

/-- If two accesses at negative offsets from the same pointer are compared then
the first one ends before the pointer. Needed: see `negative_wrong`. -/
def EndsBefore (p : Program) (a1 s1 a2 s2 : Nat) : Prop :=
  ∀ m c1 c2, p.Sum a1 m c1 → p.Sum a2 m c2 → c1 < 0 → c2 < 0 →
    (c1 ≤ c2 → c1 + s1 < 0) ∧ (c2 ≤ c1 → c2 + s2 < 0)

theorem same_base_disjoint (x : Exec p w) (h1 : 1 ≤ w) (hw : w ≤ 64) {a1 s1 a2 s2 : Nat}
    {i1 i2 : Info}
    (v1 : Inv x a1 i1) (v2 : Inv x a2 i2) (q1 : p.Small w a1 s1) (q2 : p.Small w a2 s2)
    (hneg : EndsBefore p a1 s1 a2 s2)
    (hb : i1.base = i2.base) (hsym : i1.sym = i2.sym) (c1 : i1.hasConst = true)
    (c2 : i2.hasConst = true) (h : sameBase i1.offset s1 i2.offset s2 = .no) :
    Disjoint (x.loc a1) s1 (x.loc a2) s2 := by
  have hpow := pow_le hw
  have e1 := q1 _ _ v1.sum
  have e2 := q2 _ _ v2.sum
  have hdbl : (2 ^ w : Int) = 2 ^ (w - 1) + 2 ^ (w - 1) := by
    have : (2 : Int) ^ w = 2 ^ (w - 1 + 1) := by congr 1; omega
    rw [this, Int.pow_succ]
    omega
  have := sameBase_no h (by omega) (by omega) (by omega) (by omega)
    (fun n1 n2 => hneg _ _ _ v1.sum (hb ▸ v2.sum) n1 n2)
  rw [v1.loc c1, v2.loc c2, hb, hsym]
  rcases this with h' | h'
  · exact disjoint_int _ _ _ _ _ _ h' (by omega)
  · exact disjoint_symm (disjoint_int _ _ _ _ _ _ h' (by omega))

theorem entities_disjoint (hp : p.Ok w) (x : Exec p w) {a1 s1 a2 s2 b1 b2 n1 n2 : Nat}
    {e1 e2 : Option Nat} (ha1 : x.Access a1 s1) (ha2 : x.Access a2 s2)
    (hd1 : p.Derived a1 n1) (hd2 : p.Derived a2 n2)
    (f1 : Found p n1 b1 e1) (f2 : Found p n2 b2 e2)
    (h : entities p b1 e1 b2 e2 = some .no) : Disjoint (x.loc a1) s1 (x.loc a2) s2 := by
  simp only [entities] at h
  split at h
  next u1 u2 =>
    split at h
    · split at h <;> exact nomatch h
    next hne =>
    split at h
    · exact nomatch h
    next how =>
    split at h
    next hcond =>
      have how : (p.ent u1).owner = (p.ent u2).owner := Classical.not_not.1 how
      simp only [Bool.and_eq_true, Bool.not_eq_true'] at hcond
      obtain ⟨⟨c1, c2⟩, c3⟩ := hcond
      obtain ⟨m1, q1, d1, k1⟩ := f1.ent _ rfl
      obtain ⟨m2, q2, d2, k2⟩ := f2.ent _ rfl
      rintro b ⟨hb1, hb2⟩
      have hb1 := ha1.inside m1 q1 u1 (derived_trans hd1 d1) k1 b hb1
      have hb2 := ha2.inside m2 q2 u2 (derived_trans hd2 d2) k2 b hb2
      rw [x.member _ _ _ k1] at hb1
      rw [x.member _ _ _ k2] at hb2
      have i1 := hp.inside _ _ _ k1
      have i2 := hp.inside _ _ _ k2
      rcases x.instances _ _ _ _ _ _ k1 k2 how with hq | hq
      · rw [hq] at hb1
        have hfit := hp.fits _ _ _ k1
        rw [how] at i1 hfit
        have two : ∀ (o1 s1 o2 s2 : Nat), o1 + s1 ≤ o2 → o2 + s2 ≤ 2 ^ w →
            Bytes ((x.loc q2).move (BitVec.ofNat w o1)) s1 b →
            Bytes ((x.loc q2).move (BitVec.ofNat w o2)) s2 b → False := by
          intro o1 s1 o2 s2 h1 h2 hh1 hh2
          have hpc : ((2 ^ w : Nat) : Int) = 2 ^ w := by simp
          have := disjoint_int (x.loc q2) 0 (o1 : Int) (o2 : Int) s1 s2 (by omega) (by omega)
          simp only [BitVec.ofInt_natCast] at this
          refine this b ⟨?_, ?_⟩
          · simpa using hh1
          · simpa using hh2
        rcases hp.apart _ _ _ _ _ _ k1 k2 hne how c1 c2 c3 with h' | h'
        · exact two _ _ _ _ h' (by omega) hb1 hb2
        · exact two _ _ _ _ h' (by omega) hb2 hb1
      · exact hq b ⟨bytes_member _ _ _ _ i1 hb1, bytes_member _ _ _ _ i2 hb2⟩
    next => exact nomatch h
  next => exact nomatch h

theorem addLong_some {a b c : Int} (h : addLong a b = some c) : c = a + b := addLong_eq h

theorem global_loc (x : Exec p w) {a n : Nat} {i : Info} {v : Int} (hi : Inv x a i)
    (hpl : x.Plain a) (hn : i.base = n) (hop : p.op n = .const v) (hv : v ≠ 0) :
    x.loc a = ⟨.abs, BitVec.ofInt w (v + i.offset)⟩ := by
  subst hn
  rcases hi.plain with ⟨h1, h2⟩ | ⟨m, h1, h2, h3⟩
  · rw [hi.loc h1, h2, x.const _ _ hv hop]
    simp [Loc.move, symVal, BitVec.ofInt_add]
  · exfalso
    rcases hpl.constAddr _ v m (sum_derived hi.sum) hop hv h1 h2 with h | ⟨l, r, c, h, hc⟩
    · subst h
      rw [hop] at h3
      rcases h3 with ⟨_, _, h⟩ | ⟨_, _, h, _⟩ <;> exact nomatch h
    · rcases h3 with ⟨_, _, h'⟩ | ⟨l', r', h', hne⟩
      · rw [h] at h'; exact nomatch h'
      · rw [h] at h'
        injection h' with e1 e2
        subst e1 e2
        exact hne _ hc

theorem global_disjoint {lo o1 v1 o2 v2 : Int} {s1 s2 : Nat}
    (h1 : lo ≤ v1 + o1 ∧ v1 + o1 + s1 ≤ lo + 2 ^ w)
    (h2 : lo ≤ v2 + o2 ∧ v2 + o2 + s2 ≤ lo + 2 ^ w)
    (h : globalAddr o1 s1 v1 o2 s2 v2 = some .no) :
    Disjoint (⟨.abs, BitVec.ofInt w (v1 + o1)⟩ : Loc w) s1 ⟨.abs, BitVec.ofInt w (v2 + o2)⟩ s2 := by
  simp only [globalAddr] at h
  split at h
  next b1 b2 e1 e2 =>
    have e1 := addLong_eq e1
    have e2 := addLong_eq e2
    split at h
    · split at h
      next hge =>
        have key : ∀ (c1 c2 : Int) (t1 t2 : Nat), c1 + t1 ≤ c2 → c2 + t2 ≤ c1 + 2 ^ w →
            Disjoint (⟨.abs, BitVec.ofInt w c1⟩ : Loc w) t1 ⟨.abs, BitVec.ofInt w c2⟩ t2 := by
          intro c1 c2 t1 t2 a1 a2
          have := disjoint_int (⟨.abs, 0⟩ : Loc w) 0 c1 c2 t1 t2 a1 a2
          simpa [Loc.move] using this
        by_cases hle : v1 + o1 ≤ v2 + o2
        · exact key _ _ _ _ (by omega) (by omega)
        · exact disjoint_symm (key _ _ _ _ (by omega) (by omega))
      next => exact nomatch h
    · exact nomatch h
  next => exact nomatch h

/-- Side conditions that the analysis needs on the two types: it answers wrong
if one of them is a pointer and the other one contains it, see
`pointer_part_wrong`. -/
def PointersAgree (p : Program) (t1 t2 : Nat) : Prop :=
  (∃ u, p.ty t1 = .pointer u) ↔ (∃ u, p.ty t2 = .pointer u)

theorem isPointer_iff {t : Nat} : isPointer p t = true ↔ ∃ u, p.ty t = .pointer u := by
  simp only [isPointer]
  split
  next u h => simp [h]
  next h =>
    simp only [Bool.false_eq_true, false_iff, not_exists]
    exact fun u hu => h u hu

theorem classes_disjoint (hp : p.Ok w) (x : Exec p w) {o : Options} {lo : Int}
    {derefs a1 t1 s1 a2 t2 s2 b1 b2 : Nat} {i1 i2 : Info} {e1 e2 : Option Nat}
    (ha1 : x.Access a1 s1) (ha2 : x.Access a2 s2) (hp1 : x.Plain a1) (hp2 : x.Plain a2)
    (v1 : Inv x a1 i1) (v2 : Inv x a2 i2) (st1 : Stop p i1.base) (st2 : Stop p i2.base)
    (f1 : Found p i1.base b1 e1) (f2 : Found p i2.base b2 e2)
    (w1 : p.Window w lo a1 s1) (w2 : p.Window w lo a2 s2)
    (hptr : PointersAgree p t1 t2)
    (htyped : o.typeBased = true → ¬ Disjoint (x.loc a1) s1 (x.loc a2) s2 → p.Related t1 t2)
    (h : classes p o derefs i1.offset b1 (classify p i1.base b1) t1 s1
      i2.offset b2 (classify p i2.base b2) t2 s2 = some .no) :
    Disjoint (x.loc a1) s1 (x.loc a2) s2 := by
  have d1 := sum_derived v1.sum
  have d2 := sum_derived v2.sum
  have k1 := view hp x ha1 hp1 d1 st1 f1
  have k2 := view hp x ha2 hp2 d2 st2 f2
  have c1 := fun hc {e} => view_comp (e := e) x hp1 d1 f1 hc
  have c2 := fun hc {e} => view_comp (e := e) x hp2 d2 f2 hc
  have htb : typeBased p o derefs t1 t2 = some .no →
      Disjoint (x.loc a1) s1 (x.loc a2) s2 := by
    intro hh
    have := typeBased_no hp (t1 := t1) (t2 := t2) (by
      have := hptr
      simp only [PointersAgree, ← isPointer_iff] at this
      exact Bool.eq_iff_iff.2 this) hh
    exact Classical.byContradiction fun hn => this.2 (htyped this.1 hn)
  generalize classify p i1.base b1 = m1 at h k1 c1
  generalize classify p i2.base b2 = m2 at h k2 c2
  refine Classical.byContradiction fun hnd => ?_
  have hobj : (x.loc a1).obj = (x.loc a2).obj :=
    Classical.byContradiction fun hn => hnd (disjoint_obj hn)
  rw [← hobj] at k2 c2
  generalize ho : (x.loc a1).obj = ob at k1 k2 c1 c2 hobj
  cases k1 with
  | var u1 r1 hv1 hu1 ht1 hm1 hr1 hc1 =>
    cases k2 with
    | var u2 r2 hv2 hu2 ht2 hm2 hr2 hc2 =>
      have hu : u1 = u2 := by rw [hu1] at hu2; injection hu2
      subst hu
      have hrr : r1 = r2 := by
        rcases hc1 with ⟨h1, _, h2⟩ | ⟨h1, h2⟩ | ⟨h1, _, h2⟩ | ⟨h1, h2⟩ <;>
        rcases hc2 with ⟨h3, _, h4⟩ | ⟨h3, h4⟩ | ⟨h3, _, h4⟩ | ⟨h3, h4⟩ <;>
        first
          | (rw [h1, h3]; done)
          | (rw [h2] at h4; exact nomatch h4)
      subst hrr
      subst hm1 hm2
      have hcp : ((p.ent u1).compound && !(p.ent u1).compound) = false := by
        cases (p.ent u1).compound <;> rfl
      rcases hc1 with ⟨h1, ⟨e', he'⟩, h2⟩ | ⟨h1, h2⟩ | ⟨h1, ⟨q', e', he'⟩, h2⟩ | ⟨h1, h2⟩
      · subst h1
        have g1 : p.op b1 = .address u1 := by
          rcases hv1 with hv | ⟨q, hv, _⟩
          · exact hv
          · rw [he'] at hv; exact nomatch hv
        have g2 : p.op b2 = .address u1 := by
          rcases hv2 with hv | ⟨q, hv, hq⟩
          · exact hv
          · rcases hp.locals _ _ _ hv hq with hh | hh <;> rw [h2] at hh <;> exact nomatch hh
        simp [classes, ofEntity, hcp, g1, g2] at h
      · subst h1
        simp [classes, ofEntity, hcp] at h
        exact hnd (htb h)
      · subst h1
        have g1 : ∃ q, p.op b1 = .member q u1 := by
          rcases hv1 with hv | ⟨q, hv, _⟩
          · rw [he'] at hv; exact nomatch hv
          · exact ⟨q, hv⟩
        have g2 : ∃ q, p.op b2 = .member q u1 := by
          rcases hv2 with hv | ⟨q, hv, hq⟩
          · rcases hp.globals _ _ hv with hh | hh <;> rw [h2] at hh <;> exact nomatch hh
          · exact ⟨q, hv⟩
        obtain ⟨_, g1⟩ := g1
        obtain ⟨_, g2⟩ := g2
        simp [classes, ofEntity, hcp, g1, g2] at h
      · subst h1
        simp [classes, ofEntity, hcp] at h
        exact hnd (htb h)
    | ptr hq1 hq2 hq3 hq4 =>
      have ht := hq4 u1 (by rw [ht1, hu1])
      have hnp : r1 ≠ .pointer := by
        rcases hc1 with ⟨h1, _⟩ | ⟨h1, _⟩ | ⟨h1, _⟩ | ⟨h1, _⟩ <;> rw [h1] <;> decide
      have hnn : r1 ≠ .null := by
        rcases hc1 with ⟨h1, _⟩ | ⟨h1, _⟩ | ⟨h1, _⟩ | ⟨h1, _⟩ <;> rw [h1] <;> decide
      have hcp : ((m1.comp || m2.comp) && (m1.prim || m2.prim)) = false := by
        rw [hq3, hm1]
        simp only [ofEntity]
        cases hcm : (p.ent u1).compound with
        | true => simp
        | false =>
          cases hcc : m2.comp with
          | false => simp
          | true =>
            have := c2 hcc ht1 hu1
            rw [hcm, hr1] at this
            rcases this with h | h <;> exact nomatch h
      have hm : m1.cls = r1 ∧ m1.nottaken = false := by simp [hm1, ofEntity, ht]
      simp [classes, hcp, hq1, hm.1, hm.2, hnp, hnn] at h
      exact hnd (htb h)
    | malloc hq1 hq2 hq3 hq4 hq5 => rw [hu1] at hq5; exact nomatch hq5
    | const v hq1 hq2 hq3 hq4 hq5 hq6 hq7 => rw [hu1] at hq7; exact nomatch hq7
  | ptr hz1 hz2 hz3 hz4 =>
    have hgo : (((m1.comp || m2.comp) && (m1.prim || m2.prim)) = false) → m2.nottaken = false →
        m2.cls ≠ .null → False := by
      intro g1 g2 g3
      simp [classes, g1, hz1, g2, g3] at h
      exact hnd (htb h)
    cases k2 with
    | var u2 r2 hv2 hu2 ht2 hm2 hr2 hc2 =>
      have ht := hz4 u2 (by rw [ht2, hu2])
      have hnn : r2 ≠ .null := by
        rcases hc2 with ⟨h1, _⟩ | ⟨h1, _⟩ | ⟨h1, _⟩ | ⟨h1, _⟩ <;> rw [h1] <;> decide
      subst hm2
      refine hgo ?_ (by simp [ofEntity, ht]) hnn
      rw [hz3]
      simp only [ofEntity]
      cases hcm : (p.ent u2).compound with
      | true => simp
      | false =>
        cases hcc : m1.comp with
        | false => simp
        | true =>
          have := c1 hcc ht2 hu2
          rw [hcm, hr2] at this
          rcases this with h | h <;> exact nomatch h
    | ptr hq1 hq2 hq3 hq4 => exact hgo (by simp [hz3, hq3]) hq2 (by rw [hq1]; decide)
    | malloc hq1 hq2 hq3 hq4 hq5 => exact hgo (by simp [hz3, hq3]) hq2 (by rw [hq1]; decide)
    | const v hq1 hq2 hq3 hq4 hq5 hq6 hq7 =>
      exact hgo (by simp [hz3, hq3]) hq2 (by rw [hq1]; decide)
  | malloc hz1 hz2 hz3 hz4 hz5 =>
    cases k2 with
    | var u2 r2 hv2 hu2 ht2 hm2 hr2 hc2 => rw [hu2] at hz5; exact nomatch hz5
    | ptr hq1 hq2 hq3 hq4 =>
      simp [classes, hz1, hz2, hz3, hq1, hq3] at h
      exact hnd (htb h)
    | malloc hq1 hq2 hq3 hq4 hq5 =>
      have hb : b1 = b2 := by rw [hz5] at hq5; injection hq5
      simp [classes, hz1, hz3, hq1, hq3, hb] at h
    | const v hq1 hq2 hq3 hq4 hq5 hq6 hq7 => rw [hz5] at hq7; exact nomatch hq7
  | const v hz1 hz2 hz3 hz4 hz5 hz6 hz7 =>
    cases k2 with
    | var u2 r2 hv2 hu2 ht2 hm2 hr2 hc2 => rw [hu2] at hz7; exact nomatch hz7
    | ptr hq1 hq2 hq3 hq4 =>
      simp [classes, hz1, hz2, hz3, hq1, hq3] at h
      exact hnd (htb h)
    | malloc hq1 hq2 hq3 hq4 hq5 => rw [hz7] at hq5; exact nomatch hq5
    | const v' hq1 hq2 hq3 hq4 hq5 hq6 hq7 =>
      simp [classes, hz1, hz3, hq1, hq3, hz4, hq4] at h
      refine hnd ?_
      rw [global_loc x v1 hp1 hz6 hz4 hz5, global_loc x v2 hp2 hq6 hq4 hq5]
      exact global_disjoint (w1 _ _ _ v1.sum (hz6 ▸ hz4)) (w2 _ _ _ v2.sum (hq6 ▸ hq4)) h

/-- "No alias" means that no byte is accessed by both accesses. The conditions
`Plain`, `EndsBefore` and `PointersAgree` exclude the cases in which the answer
is wrong; each of them is needed, see the theorems below. -/
theorem no_alias_partial (hp : p.Ok w) (hw1 : 1 ≤ w) (hw : w ≤ 64) (hl : Longs p) (x : Exec p w)
    {o : Options} (hopt : o.never = false) {lo : Int} {derefs a1 t1 s1 a2 t2 s2 : Nat}
    (ha1 : x.Access a1 s1) (ha2 : x.Access a2 s2) (hp1 : x.Plain a1) (hp2 : x.Plain a2)
    (q1 : p.Small w a1 s1) (q2 : p.Small w a2 s2) (hneg : EndsBefore p a1 s1 a2 s2)
    (w1 : p.Window w lo a1 s1) (w2 : p.Window w lo a2 s2) (hptr : PointersAgree p t1 t2)
    (htyped : o.typeBased = true → ¬ Disjoint (x.loc a1) s1 (x.loc a2) s2 → p.Related t1 t2)
    (h : alias p o derefs a1 t1 s1 a2 t2 s2 = some .no) :
    Disjoint (x.loc a1) s1 (x.loc a2) s2 := by
  have hlong : ∀ n v, p.op n = .const v → isLong v = true := by
    intro n v hv
    have := hl n v hv
    simp only [isLong, Bool.and_eq_true, decide_eq_true_eq]
    exact this
  simp only [alias] at h
  split at h
  · exact nomatch h
  split at h
  · exact nomatch h
  rw [hopt] at h
  simp only [Bool.false_eq_true, if_false] at h
  split at h
  next i1 i2 g1 g2 =>
    obtain ⟨v1, st1⟩ := addressInfo_inv x hlong g1
    obtain ⟨v2, st2⟩ := addressInfo_inv x hlong g2
    split at h
    next hs =>
      injection h with h
      exact same_base_disjoint x hw1 hw v1 v2 q1 q2 hneg hs.1 hs.2.1 hs.2.2.1 hs.2.2.2 h
    next =>
      split at h
      next b1 e1 b2 e2 g3 g4 =>
        have f1 := baseAddr_found g3
        have f2 := baseAddr_found g4
        split at h
        next r hr =>
          subst_vars
          injection h with h
          subst h
          exact entities_disjoint hp x ha1 ha2 (sum_derived v1.sum) (sum_derived v2.sum) f1 f2 hr
        next =>
          exact classes_disjoint hp x ha1 ha2 hp1 hp2 v1 v2 st1 st2 f1 f2 w1 w2 hptr htyped h
      next => exact nomatch h
  next => exact nomatch h

/-- Operands of address computations have smaller numbers. -/
structure Ordered (p : Program) : Prop where
  add : ∀ n l r, p.op n = .add l r → l < n ∧ r < n
  sub : ∀ n l r, p.op n = .sub l r → l < n
  sel : ∀ n q i, p.op n = .sel q i → q < n
  member : ∀ n q e, p.op n = .member q e → q < n

/-- The loop over additions ends, and the sum is computed if no partial sum
overflows. -/
theorem addressInfo_total (ho : Ordered p) (hl : Longs p) (a : Nat)
    (hs : ∀ m c, p.Sum a m c → -(2 ^ 63 : Int) ≤ c ∧ c < 2 ^ 63) :
    (addressInfo p a).isSome = true := by
  have hlong : ∀ n v, p.op n = .const v → isLong v = true := by
    intro n v hv
    have := hl n v hv
    simp only [isLong, Bool.and_eq_true, decide_eq_true_eq]
    exact this
  have key : ∀ (fuel : Nat) (s : Info), s.base < fuel → p.Sum a s.base s.offset →
      (info p fuel s).isSome = true := by
    intro fuel
    induction fuel with
    | zero => intro s h; omega
    | succ fuel ih =>
      intro s hf hsum
      simp only [info]
      split
      next l r hop =>
        obtain ⟨o1, o2⟩ := ho.add _ _ _ hop
        generalize hqi : (if p.ref l = true then (l, r) else (r, l)) = qi
        obtain ⟨q, k⟩ := qi
        have hq : q < s.base := by
          cases hr : p.ref l <;> rw [hr] at hqi <;> simp at hqi <;> omega
        cases hk : p.op k with
        | const v =>
          have h1 := sum_trans hsum (.add hop hqi.symm hk (.refl _))
          simp only [Int.add_zero] at h1
          have h2 := hs _ _ h1
          have h3 : addLong s.offset v = some (s.offset + v) := by
            have h4 : isLong (s.offset + v) = true := by
              simp only [isLong, Bool.and_eq_true, decide_eq_true_eq]
              exact h2
            rw [addLong, if_pos h4]
          simp only [hlong _ _ hk, if_true, h3]
          exact ih _ (by simp only; omega) h1
        | _ =>
          have h1 := sum_trans hsum (.sym hop hqi.symm
            (fun v hv => by rw [hk] at hv; exact nomatch hv) (.refl _))
          simp only [Int.add_zero] at h1
          simp only
          split
          · exact ih _ (by simp only; omega) h1
          · exact ih _ (by simp only; omega) h1
      next l r hop =>
        have := ho.sub _ _ _ hop
        have h1 := sum_trans hsum (.sub hop (.refl _))
        simp only [Int.add_zero] at h1
        exact ih _ (by simp only; omega) h1
      next => rfl
  exact key _ _ (by simp only; omega) (.refl _)

/-- The loop over members and elements ends. -/
theorem baseAddr_total (ho : Ordered p) (n : Nat) : (baseAddr p n).isSome = true := by
  have key : ∀ (fuel n : Nat) (e : Option Nat), n < fuel → (findBase p fuel n e).isSome = true := by
    intro fuel
    induction fuel with
    | zero => intro n e h; omega
    | succ fuel ih =>
      intro n e hf
      simp only [findBase]
      split
      next q i hop =>
        have := ho.sel _ _ _ hop
        exact ih _ _ (by omega)
      next q e' hop =>
        have := ho.member _ _ _ hop
        split
        · rfl
        · exact ih _ _ (by omega)
      next => rfl
  exact key _ _ _ (by omega)

theorem deref_symm (fuel t1 t2 : Nat) :
    deref p fuel t2 t1 = (deref p fuel t1 t2).map Prod.swap := by
  induction fuel generalizing t1 t2 with
  | zero => rfl
  | succ fuel ih =>
    simp only [deref]
    cases h1 : p.ty t1 <;> cases h2 : p.ty t2 <;> first | exact ih _ _ | rfl

theorem differentTypes_symm (derefs t1 t2 : Nat) :
    differentTypes p derefs t1 t2 = differentTypes p derefs t2 t1 := by
  simp only [differentTypes]
  by_cases h : t1 = t2
  · subst h; rfl
  · have h' : t2 ≠ t1 := fun hh => h hh.symm
    simp only [h, h', if_false]
    rw [deref_symm derefs t1 t2]
    cases deref p derefs t1 t2 with
    | none => rfl
    | some u =>
      simp only [Option.map_some, Prod.swap]
      rw [Bool.or_comm (typeContains p (u.1 + 1) u.1 u.2), Bool.and_comm (isClass p u.1),
        Bool.or_comm (p.subclass u.1 u.2)]

theorem typeBased_symm (o : Options) (derefs t1 t2 : Nat) :
    typeBased p o derefs t1 t2 = typeBased p o derefs t2 t1 := by
  have hb : (isPointer p t1 != isPointer p t2) = (isPointer p t2 != isPointer p t1) := by
    cases isPointer p t1 <;> cases isPointer p t2 <;> rfl
  simp only [typeBased, differentTypes_symm derefs t1 t2, Bool.or_comm (p.tySize t1 == 1), hb]
  cases h1 : p.ty t1 <;> cases h2 : p.ty t2 <;> simp only [] <;>
    simp only [ne_eq, eq_comm]

theorem sameBase_symm (o1 o2 : Int) (s : Nat) : sameBase o1 s o2 s = sameBase o2 s o1 s := by
  simp only [sameBase]
  by_cases h1 : o1 ≤ o2
  · by_cases h2 : o2 ≤ o1
    · have he : o1 = o2 := by omega
      rw [he]
    · simp [h1, h2]
  · have h2 : o2 ≤ o1 := by omega
    simp [h1, h2]

theorem globalAddr_symm (o1 c1 o2 c2 : Int) (s1 s2 : Nat) :
    globalAddr o1 s1 c1 o2 s2 c2 = globalAddr o2 s2 c2 o1 s1 c1 := by
  simp only [globalAddr]
  cases addLong o1 c1 <;> cases addLong o2 c2 <;> try rfl
  rename_i a b
  have e1 : -(b - a) = a - b := by omega
  have e2 : -(a - b) = b - a := by omega
  have e3 : (b - a).natAbs = (a - b).natAbs := by omega
  simp only [e1, e2, e3, Nat.max_comm s1 s2, Bool.and_comm (isLong (b - a))]

theorem classes_symm (o : Options) (derefs : Nat) (o1 o2 : Int) (b1 b2 : Nat) (m1 m2 : Class)
    (t1 t2 s1 s2 : Nat) (h : m1.cls = .pointer → m2.cls = .pointer →
      m1.nottaken = false ∧ m2.nottaken = false) :
    classes p o derefs o1 b1 m1 t1 s1 o2 b2 m2 t2 s2 =
      classes p o derefs o2 b2 m2 t2 s2 o1 b1 m1 t1 s1 := by
  simp only [classes, Bool.or_comm m1.comp, Bool.or_comm m1.prim, or_comm (a := m1.cls = .pointer),
    typeBased_symm o derefs t1 t2]
  split
  · rfl
  split
  next hp =>
    by_cases h1 : m1.cls = .pointer
    · by_cases h2 : m2.cls = .pointer
      · simp [h1, h2, h h1 h2]
      · simp [h1, h2]
    · by_cases h2 : m2.cls = .pointer
      · simp [h1, h2]
      · simp [h1, h2] at hp
  next =>
    by_cases he : m1.cls = m2.cls
    · simp only [he]
      simp only [ne_eq, not_true_eq_false, if_false]
      cases m2.cls <;> cases p.op b1 <;> cases p.op b2 <;>
        simp [eq_comm, globalAddr_symm o1]
    · simp [he, Ne.symm he]

theorem entities_symm (b1 b2 : Nat) (e1 e2 : Option Nat) :
    entities p b1 e1 b2 e2 = entities p b2 e2 b1 e1 := by
  simp only [entities]
  cases e1 <;> cases e2 <;> try rfl
  rename_i u1 u2
  by_cases hu : u1 = u2
  · subst hu; simp [eq_comm]
  · by_cases ho : (p.ent u1).owner = (p.ent u2).owner
    · simp only [hu, Ne.symm hu, ho, if_false, ne_eq, not_true_eq_false]
      simp only [Bool.and_assoc, Bool.and_comm (!(p.ent u1).bitfield)]
    · simp [hu, Ne.symm hu, ho, Ne.symm ho]

theorem classify_pointer {n b : Nat} (h : (classify p n b).cls = .pointer) :
    (classify p n b).nottaken = false := by
  simp only [classify, ofEntity] at h ⊢
  split at h
  · simp only at h; split at h <;> exact nomatch h
  · simp only at h; split at h <;> exact nomatch h
  · exact nomatch h
  · simp only at h; split at h <;> exact nomatch h
  · rfl

/-- The answer does not depend on the order of the two addresses if both
accesses have the same size. For different sizes it does, see
`order_wrong`. -/
theorem alias_symm_partial (o : Options) (derefs a1 t1 a2 t2 s : Nat) :
    alias p o derefs a1 t1 s a2 t2 s = alias p o derefs a2 t2 s a1 t1 s := by
  simp only [alias]
  by_cases ha : a1 = a2
  · subst ha; simp
  simp only [ha, Ne.symm ha, if_false]
  split
  · rfl
  split
  · rfl
  cases g1 : addressInfo p a1 <;> cases g2 : addressInfo p a2 <;> try rfl
  rename_i i1 i2
  simp only
  by_cases hc : i1.base = i2.base ∧ i1.sym = i2.sym ∧ i1.hasConst = true ∧ i2.hasConst = true
  · have hc' : i2.base = i1.base ∧ i2.sym = i1.sym ∧ i2.hasConst = true ∧ i1.hasConst = true :=
      ⟨hc.1.symm, hc.2.1.symm, hc.2.2.2, hc.2.2.1⟩
    rw [if_pos hc, if_pos hc', sameBase_symm]
  · have hc' : ¬ (i2.base = i1.base ∧ i2.sym = i1.sym ∧ i2.hasConst = true ∧ i1.hasConst = true) :=
      fun h => hc ⟨h.1.symm, h.2.1.symm, h.2.2.2, h.2.2.1⟩
    rw [if_neg hc, if_neg hc']
    cases g3 : baseAddr p i1.base <;> cases g4 : baseAddr p i2.base <;> try rfl
    rename_i u1 u2
    obtain ⟨b1, e1⟩ := u1
    obtain ⟨b2, e2⟩ := u2
    simp only
    rw [entities_symm b1 b2 e1 e2]
    split
    · rfl
    · exact classes_symm _ _ _ _ _ _ _ _ _ _ _ _
        (fun h1 h2 => ⟨classify_pointer h1, classify_pointer h2⟩)

/-! ## Wrong answers

All of the following accesses follow the rules (`Access`). -/

open Lemmas.AliasExample

theorem overlap {w : Nat} {l1 l2 : Loc w} {s1 s2 : Nat} (k1 k2 : Nat) (h1 : k1 < s1) (h2 : k2 < s2)
    (ho : l1.obj = l2.obj) (h : l1.off + BitVec.ofNat w k1 = l2.off + BitVec.ofNat w k2) :
    ¬ Disjoint l1 s1 l2 s2 :=
  fun hd => hd ⟨l1.obj, l1.off + BitVec.ofNat w k1⟩ ⟨⟨rfl, k1, h1, rfl⟩, ⟨ho, k2, h2, h⟩⟩

/-- 8 bytes at `p - 8` and 4 bytes at `p - 4`: the end of the first access is
computed as 0 and compared as an unsigned number with the offset `-4`. -/
theorem negative_wrong :
    alias prog {} 1 2 0 8 4 0 4 = some .no ∧ exec.Access 2 8 ∧ exec.Access 4 4 ∧
      ¬ Disjoint (exec.loc 2) 8 (exec.loc 4) 4 :=
  ⟨by decide +kernel, access _ _ (by decide) (by decide), access _ _ (by decide) (by decide),
    overlap 4 0 (by decide) (by decide) rfl (by decide)⟩

/-- `arr[i].x` and `q->x` where `q` points to `arr[i]`: the array counts as a
primitive object. -/
theorem array_wrong :
    alias prog {} 1 8 0 4 10 0 4 = some .no ∧ exec.Access 8 4 ∧ exec.Access 10 4 ∧
      ¬ Disjoint (exec.loc 8) 4 (exec.loc 10) 4 :=
  ⟨by decide +kernel, access _ _ (by decide) (by decide), access _ _ (by decide) (by decide),
    overlap 0 0 (by decide) (by decide) rfl (by decide)⟩

/-- `((T *)((char *)&g + 8))->x` and `g.b`, both read as 4 bytes, where the
address of `g` is not taken: the result of the addition counts as a pointer of
unknown origin. -/
theorem arith_wrong :
    alias prog {} 1 14 0 4 15 0 4 = some .no ∧ exec.Access 14 4 ∧ exec.Access 15 4 ∧
      ¬ Disjoint (exec.loc 14) 4 (exec.loc 15) 4 :=
  ⟨by decide +kernel, access _ _ (by decide) (by decide), access _ _ (by decide) (by decide),
    overlap 0 0 (by decide) (by decide) rfl (by decide)⟩

/-- A variable and its second name. -/
theorem second_name_wrong :
    alias prog {} 1 16 0 4 17 0 4 = some .no ∧ exec.Access 16 4 ∧ exec.Access 17 4 ∧
      ¬ Disjoint (exec.loc 16) 4 (exec.loc 17) 4 :=
  ⟨by decide +kernel, access _ _ (by decide) (by decide), access _ _ (by decide) (by decide),
    overlap 0 0 (by decide) (by decide) rfl (by decide)⟩

/-- `((char *)4096)[i]` with `i = 1` and `*(char *)4097`: the symbolic offset is
ignored. -/
theorem const_index_wrong :
    alias prog {} 1 19 0 1 20 0 1 = some .no ∧ exec.Access 19 1 ∧ exec.Access 20 1 ∧
      ¬ Disjoint (exec.loc 19) 1 (exec.loc 20) 1 :=
  ⟨by decide +kernel, access _ _ (by decide) (by decide), access _ _ (by decide) (by decide),
    overlap 0 0 (by decide) (by decide) rfl (by decide)⟩

/-- `((T *)4096)->y` with `y` at offset 4 and `*(int *)4100`: the offset of the
member is ignored. -/
theorem const_member_wrong :
    alias prog {} 1 21 0 4 22 0 4 = some .no ∧ exec.Access 21 4 ∧ exec.Access 22 4 ∧
      ¬ Disjoint (exec.loc 21) 4 (exec.loc 22) 4 :=
  ⟨by decide +kernel, access _ _ (by decide) (by decide), access _ _ (by decide) (by decide),
    overlap 0 0 (by decide) (by decide) rfl (by decide)⟩

/-- A copy of a struct and an access to the pointer in it: with type based
analysis a pointer and a struct never alias. -/
theorem pointer_part_wrong :
    alias prog { typeBased := true } 1 0 2 8 23 1 8 = some .no ∧ exec.Access 0 8 ∧
      exec.Access 23 8 ∧ prog.Related 2 1 ∧ ¬ Disjoint (exec.loc 0) 8 (exec.loc 23) 8 :=
  ⟨by decide +kernel, access _ _ (by decide) (by decide), access _ _ (by decide) (by decide),
    Or.inl (.part (m := 1) rfl (by decide) (.refl _)),
    overlap 0 0 (by decide) (by decide) rfl (by decide)⟩

/-- The answer depends on the order: 8 bytes and 2 bytes at `p - 4` (two nodes
for the same address); only the size of the first access is used. -/
theorem order_wrong :
    sameBase (-4) 8 (-4) 2 = .no ∧ sameBase (-4) 2 (-4) 8 = .sure := by decide +kernel

/-- "Sure alias" does not mean that the accesses overlap: 4 bytes at `p - 8` and
4 bytes at `p + 8`. No caller makes a difference between "sure" and "may". -/
theorem sure_wrong :
    alias prog {} 1 2 0 4 24 0 4 = some .sure ∧ exec.Access 2 4 ∧ exec.Access 24 4 ∧
      Disjoint (exec.loc 2) 4 (exec.loc 24) 4 := by
  refine ⟨by decide +kernel, access _ _ (by decide) (by decide),
    access _ _ (by decide) (by decide), ?_⟩
  have := disjoint_int (⟨.foreign 0, 0⟩ : Loc 64) 0 8 24 4 4 (by decide) (by decide)
  exact this

/-! ## Examples -/

theorem prog_ok : prog.Ok 64 where
  inside n q e h := by
    have h := member_cases h
    simp only [List.mem_cons, Prod.mk.injEq, List.not_mem_nil, or_false] at h
    rcases h with ⟨_, _, h⟩ | ⟨_, _, h⟩ | ⟨_, _, h⟩ | ⟨_, _, h⟩ | ⟨_, _, h⟩ | ⟨_, _, h⟩ <;>
      subst h <;> decide
  apart n1 q1 e1 n2 q2 e2 h1 h2 := by
    have h1 := member_cases h1
    have h2 := member_cases h2
    simp only [List.mem_cons, Prod.mk.injEq, List.not_mem_nil, or_false] at h1 h2
    rcases h1 with ⟨_, _, h⟩ | ⟨_, _, h⟩ | ⟨_, _, h⟩ | ⟨_, _, h⟩ | ⟨_, _, h⟩ | ⟨_, _, h⟩ <;>
    rcases h2 with ⟨_, _, g⟩ | ⟨_, _, g⟩ | ⟨_, _, g⟩ | ⟨_, _, g⟩ | ⟨_, _, g⟩ | ⟨_, _, g⟩ <;>
      subst h g <;> decide
  fits n q e _ := by
    simp only [prog]
    split <;> decide
  globals n e h := by
    have : ∀ e, (ent e).place = .global := by
      intro e
      rcases e with _ | _ | _ | _ | _ | _ | e <;> rfl
    exact Or.inl (this e)
  locals n q e h hq := by
    exfalso
    have hf : ∀ n, op n ≠ .frame := by
      intro n hn
      simp only [op] at hn
      split at hn <;> exact nomatch hn
    exact hf q hq
  elems t e h := by
    rcases t with _ | _ | _ | _ | t <;> exact nomatch h
  parts t ms c m h hm := by
    rcases t with _ | _ | _ | _ | t
    · exact nomatch h
    · exact nomatch h
    · injection h with h _
      subst h
      simp at hm
      omega
    · exact nomatch h
    · exact nomatch h

theorem longs : Longs prog := by
  intro n v h
  simp only [prog, op] at h
  split at h <;> first | (injection h with h; subst h; decide) | exact nomatch h

/-- Addresses without constant and variable in their computation. -/
theorem plain {a : Nat} (h1 : ∀ n ∈ chain prog (a + 1) a, (∀ e, prog.op n ≠ .address e) ∧
      (∀ v, prog.op n ≠ .const v) ∧ ((∃ q e, prog.op n = .member q e) → n = a) ∧
      ((∃ q i, prog.op n = .sel q i) → n = a) ∧
      ((∃ q e, prog.op a = .member q e) → (∀ l r, prog.op n ≠ .add l r) ∧
        (∀ l r, prog.op n ≠ .sub l r)) ∧ ∀ q i, prog.op a ≠ .sel q i) : exec.Plain a := by
  have hnv : ∀ b e, prog.Derived a b → ¬ prog.IsVar b e := by
    rintro b e hd (hv | ⟨q, hv, hq⟩)
    · exact (h1 b (derived hd)).1 e hv
    · have hf : ∀ n, op n ≠ .frame := by
        intro n hn
        simp only [op] at hn
        split at hn <;> exact nomatch hn
      exact hf q hq
  refine ⟨fun b e hd hv => (hnv b e hd hv).elim, fun b e hd hv => (hnv b e hd hv).elim, ?_, ?_⟩
  · intro m k hm hs hk hop e he
    exfalso
    have hk := h1 k (derived (derived_trans hm hk))
    have hm := h1 m (derived hm)
    rcases hs with ⟨q, i, hs⟩ | ⟨q, e, hs, _⟩
    · have := hm.2.2.2.1 ⟨q, i, hs⟩
      exact hm.2.2.2.2.2 q i (this ▸ hs)
    · have hma := hm.2.2.1 ⟨q, e, hs⟩
      have := hk.2.2.2.2.1 ⟨q, e, hma ▸ hs⟩
      rcases hop with ⟨l, r, hop⟩ | ⟨l, r, hop⟩
      · exact this.1 _ _ hop
      · exact this.2 _ _ hop
  · intro k v m hd hop
    exact ((h1 k (derived hd)).2.1 v hop).elim

/-- `q->x` and `q->y`. -/
example : Disjoint (exec.loc 10) 4 (exec.loc 25) 4 := by
  have sum10 : ∀ m c, prog.Sum 10 m c → m = 10 ∧ c = 0 := by
    intro m c h
    cases h with
    | refl => exact ⟨rfl, rfl⟩
    | add h => exact nomatch h
    | sym h => exact nomatch h
    | sub h => exact nomatch h
  have sum25 : ∀ m c, prog.Sum 25 m c → m = 25 ∧ c = 0 := by
    intro m c h
    cases h with
    | refl => exact ⟨rfl, rfl⟩
    | add h => exact nomatch h
    | sym h => exact nomatch h
    | sub h => exact nomatch h
  refine no_alias_partial (o := {}) (lo := 0) (derefs := 1) (t1 := 0) (t2 := 0) prog_ok (by decide)
    (by decide) longs exec rfl (access _ _ (by decide) (by decide))
    (access _ _ (by decide) (by decide)) (plain ?_) (plain ?_) ?_ ?_ ?_ ?_ ?_ ?_ ?_
    (by decide +kernel)
  · intro n hn
    have : n = 10 ∨ n = 9 := by simpa [chain, prog, op] using hn
    rcases this with rfl | rfl <;> simp [prog, op]
  · intro n hn
    have : n = 25 ∨ n = 9 := by simpa [chain, prog, op] using hn
    rcases this with rfl | rfl <;> simp [prog, op]
  · intro m c h
    rw [(sum10 m c h).2]; decide
  · intro m c h
    rw [(sum25 m c h).2]; decide
  · intro m c1 c2 h _ hneg
    rw [(sum10 m c1 h).2] at hneg
    exact absurd hneg (by decide)
  · intro k v c h hop
    rw [(sum10 k c h).1] at hop
    exact nomatch hop
  · intro k v c h hop
    rw [(sum25 k c h).1] at hop
    exact nomatch hop
  · exact Iff.rfl
  · intro h; exact nomatch h

/-- 4 bytes at `p - 4` and 4 bytes at `p + 8`. -/
example : Disjoint (exec.loc 4) 4 (exec.loc 24) 4 := by
  have sum4 : ∀ m c, prog.Sum 4 m c → m = 4 ∧ c = 0 ∨ m = 0 ∧ c = -4 := by
    intro m c h
    cases h with
    | refl => exact Or.inl ⟨rfl, rfl⟩
    | add h1 h2 h3 h4 =>
      cases h1
      cases h2
      cases h3
      cases h4 with
      | refl => exact Or.inr ⟨rfl, rfl⟩
      | add h => exact nomatch h
      | sym h => exact nomatch h
      | sub h => exact nomatch h
    | sym h1 h2 h3 =>
      cases h1
      cases h2
      exact (h3 _ rfl).elim
    | sub h => exact nomatch h
  have sum24 : ∀ m c, prog.Sum 24 m c → m = 24 ∧ c = 0 ∨ m = 0 ∧ c = 8 := by
    intro m c h
    cases h with
    | refl => exact Or.inl ⟨rfl, rfl⟩
    | add h1 h2 h3 h4 =>
      cases h1
      cases h2
      cases h3
      cases h4 with
      | refl => exact Or.inr ⟨rfl, rfl⟩
      | add h => exact nomatch h
      | sym h => exact nomatch h
      | sub h => exact nomatch h
    | sym h1 h2 h3 =>
      cases h1
      cases h2
      exact (h3 _ rfl).elim
    | sub h => exact nomatch h
  refine no_alias_partial (o := {}) (lo := 0) (derefs := 1) (t1 := 0) (t2 := 0) prog_ok (by decide)
    (by decide) longs exec rfl (access _ _ (by decide) (by decide))
    (access _ _ (by decide) (by decide)) (plain ?_) (plain ?_) ?_ ?_ ?_ ?_ ?_ ?_ ?_
    (by decide +kernel)
  · intro n hn
    have : n = 4 ∨ n = 0 := by simpa [chain, prog, op, ref] using hn
    rcases this with rfl | rfl <;> simp [prog, op]
  · intro n hn
    have : n = 24 ∨ n = 0 := by simpa [chain, prog, op, ref] using hn
    rcases this with rfl | rfl <;> simp [prog, op]
  · intro m c h
    rcases sum4 m c h with ⟨_, rfl⟩ | ⟨_, rfl⟩ <;> decide
  · intro m c h
    rcases sum24 m c h with ⟨_, rfl⟩ | ⟨_, rfl⟩ <;> decide
  · intro m c1 c2 _ h _ hneg
    rcases sum24 m c2 h with ⟨_, rfl⟩ | ⟨_, rfl⟩ <;> exact absurd hneg (by decide)
  · intro k v c h hop
    rcases sum4 k c h with ⟨rfl, rfl⟩ | ⟨rfl, rfl⟩ <;> exact nomatch hop
  · intro k v c h hop
    rcases sum24 k c h with ⟨rfl, rfl⟩ | ⟨rfl, rfl⟩ <;> exact nomatch hop
  · exact Iff.rfl
  · intro h; exact nomatch h

end Verif.Props.Alias
