import Verif.Model.Alias

/-! Lemmas about the alias analysis. -/

namespace Verif.Lemmas.Alias

open Spec.Alias Model.Alias

theorem derived_trans {p : Program} {a m k : Nat} (h : p.Derived a m) (h2 : p.Derived m k) :
    p.Derived a k := by
  induction h with
  | refl => exact h2
  | addL a b _ ih => exact .addL a b (ih h2)
  | addR a b _ ih => exact .addR a b (ih h2)
  | sub a _ ih => exact .sub a (ih h2)
  | sel a _ ih => exact .sel a (ih h2)
  | member a _ ih => exact .member a (ih h2)

theorem sum_trans {p : Program} {a m k : Nat} {c d : Int} (h : p.Sum a m c) (h2 : p.Sum m k d) :
    p.Sum a k (c + d) := by
  induction h with
  | refl => simpa using h2
  | add a b c _ ih => rw [Int.add_assoc]; exact .add a b c (ih h2)
  | sym a b c _ ih => exact .sym a b c (ih h2)
  | sub a _ ih => exact .sub a (ih h2)

theorem sum_derived {p : Program} {a m : Nat} {c : Int} (h : p.Sum a m c) : p.Derived a m := by
  have key : ∀ {n l r q i m : Nat}, p.op n = .add l r →
      (q, i) = (if p.ref l then (l, r) else (r, l)) → p.Derived q m → p.Derived n m := by
    intro n l r q i m h1 h2 h3
    cases hr : p.ref l with
    | true =>
      rw [hr] at h2
      simp at h2
      exact .addL h1 hr (h2.1 ▸ h3)
    | false =>
      rw [hr] at h2
      simp at h2
      exact .addR h1 hr (h2.1 ▸ h3)
  induction h with
  | refl => exact .refl _
  | add a b _ _ ih => exact key a b ih
  | sym a b _ _ ih => exact key a b ih
  | sub a _ ih => exact .sub a ih

theorem move_move {w : Nat} (l : Loc w) (d e : BitVec w) : (l.move d).move e = l.move (d + e) := by
  simp only [Loc.move, BitVec.add_assoc]

theorem move_obj {w : Nat} (l : Loc w) (d : BitVec w) : (l.move d).obj = l.obj := rfl

theorem derived_obj {p : Program} {w : Nat} (x : Exec p w) {a m : Nat} (h : p.Derived a m) :
    (x.loc a).obj = (x.loc m).obj := by
  induction h with
  | refl => rfl
  | addL a b _ ih => rw [x.add _ _ _ a, b]; exact ih
  | addR a b _ ih => rw [x.add _ _ _ a, b]; exact ih
  | sub a _ ih => rw [x.sub _ _ _ a]; exact ih
  | sel a _ ih => obtain ⟨d, hd⟩ := x.sel _ _ _ a; rw [hd]; exact ih
  | member a _ ih => rw [x.member _ _ _ a]; exact ih

/-- Value of the symbolic offset. -/
def symVal {p : Program} {w : Nat} (x : Exec p w) : Option Nat → BitVec w
  | none => 0
  | some n => x.int n

/-- Invariant of the loop over additions. -/
structure Inv {p : Program} {w : Nat} (x : Exec p w) (a : Nat) (s : Info) : Prop where
  sum : p.Sum a s.base s.offset
  loc : s.hasConst = true →
    x.loc a = (x.loc s.base).move (BitVec.ofInt w s.offset + symVal x s.sym)
  plain : s.hasConst = true ∧ s.sym = none ∨
    ∃ m, p.Derived a m ∧ p.Derived m s.base ∧
      ((∃ l r, p.op m = .sub l r) ∨
        ∃ l r, p.op m = .add l r ∧ ∀ c, p.op (if p.ref l then r else l) ≠ .const c)

/-- The loop stopped. -/
def Stop (p : Program) (n : Nat) : Prop :=
  (∀ l r, p.op n ≠ .add l r) ∧ ∀ l r, p.op n ≠ .sub l r

theorem addLong_eq {a b c : Int} (h : addLong a b = some c) : c = a + b := by
  simp only [addLong] at h
  split at h
  · exact (Option.some.inj h).symm
  · exact nomatch h

theorem info_inv {p : Program} {w : Nat} (x : Exec p w)
    (hlong : ∀ n v, p.op n = .const v → isLong v = true) {a : Nat} :
    ∀ (fuel : Nat) (s i : Info), Inv x a s → info p fuel s = some i →
      Inv x a i ∧ Stop p i.base := by
  intro fuel
  induction fuel with
  | zero => intro s i _ h; exact nomatch h
  | succ fuel ih =>
    intro s i hs h
    simp only [info] at h
    split at h
    next l r hop =>
      have hadd := x.add _ _ _ hop
      generalize hqi : (if p.ref l = true then (l, r) else (r, l)) = qi at h
      obtain ⟨q, k⟩ := qi
      have hloc : x.loc s.base = (x.loc q).move (x.int k) := by
        rw [hadd]
        cases hr : p.ref l <;> rw [hr] at hqi <;> simp at hqi <;> rw [hqi.1, hqi.2] <;> rfl
      have hk' : k = if p.ref l then r else l := by
        cases hr : p.ref l <;> rw [hr] at hqi <;> simp at hqi <;> simp [hqi.2]
      have hq' : p.Derived s.base q := by
        cases hr : p.ref l <;> rw [hr] at hqi <;> simp at hqi
        · exact .addR hop hr (hqi.1 ▸ .refl _)
        · exact .addL hop hr (hqi.1 ▸ .refl _)
      have hext : (∃ m, p.Derived a m ∧ p.Derived m s.base ∧
          ((∃ l r, p.op m = .sub l r) ∨
            ∃ l r, p.op m = .add l r ∧ ∀ c, p.op (if p.ref l then r else l) ≠ .const c)) →
          ∃ m, p.Derived a m ∧ p.Derived m q ∧
          ((∃ l r, p.op m = .sub l r) ∨
            ∃ l r, p.op m = .add l r ∧ ∀ c, p.op (if p.ref l then r else l) ≠ .const c) := by
        rintro ⟨m, h1, h2, h3⟩
        exact ⟨m, h1, derived_trans h2 hq', h3⟩
      have hsym : ∀ i, (∀ v, p.op k ≠ .const v) →
          (match s.sym with
            | none => info p fuel { s with base := q, sym := some k }
            | some _ => info p fuel { s with base := q, hasConst := false }) = some i →
          Inv x a i ∧ Stop p i.base := by
        intro i hk h
        have hsum : p.Sum a q s.offset := by
          simpa using sum_trans hs.sum (.sym hop hqi.symm hk (.refl _))
        have hpl : ∃ m, p.Derived a m ∧ p.Derived m q ∧
            ((∃ l r, p.op m = .sub l r) ∨
              ∃ l r, p.op m = .add l r ∧ ∀ c, p.op (if p.ref l then r else l) ≠ .const c) :=
          ⟨s.base, sum_derived hs.sum, hq', Or.inr ⟨l, r, hop, hk' ▸ hk⟩⟩
        split at h
        next hn =>
          refine ih _ _ ⟨hsum, ?_, Or.inr hpl⟩ h
          intro hc
          rw [hs.loc hc, hloc, move_move, hn]
          simp only [symVal]
          congr 1
          simp [BitVec.add_comm]
        next => exact ih _ _ ⟨hsum, fun hc => absurd hc (by simp), Or.inr hpl⟩ h
      cases hk : p.op k with
      | const v =>
        simp only [hk, hlong _ _ hk, if_true] at h
        split at h
        next o ho =>
          refine ih _ _ ⟨?_, ?_, ?_⟩ h
          · have := sum_trans hs.sum (.add hop hqi.symm hk (.refl _))
            rw [addLong_eq ho]
            simpa using this
          · intro hc
            rw [hs.loc hc, hloc, move_move, addLong_eq ho, x.const_int _ _ hk, BitVec.ofInt_add]
            congr 1
            ac_rfl
          · exact hs.plain.imp id hext
        next => exact nomatch h
      | _ =>
        simp only [hk] at h
        refine hsym i (fun v hv => ?_) h
        rw [hk] at hv
        exact nomatch hv
    next l r hop =>
      refine ih _ _ ⟨?_, fun hc => absurd hc (by simp),
        Or.inr ⟨s.base, sum_derived hs.sum, .sub hop (.refl _), Or.inl ⟨l, r, hop⟩⟩⟩ h
      simpa using sum_trans hs.sum (.sub hop (.refl _))
    next h1 h2 =>
      injection h with h
      subst h
      exact ⟨hs, fun l r hh => h1 l r hh, fun l r hh => h2 l r hh⟩

theorem addressInfo_inv {p : Program} {w : Nat} (x : Exec p w)
    (hlong : ∀ n v, p.op n = .const v → isLong v = true) {a : Nat} {i : Info}
    (h : addressInfo p a = some i) : Inv x a i ∧ Stop p i.base := by
  refine info_inv x hlong _ _ _ ⟨.refl _, fun _ => ?_, Or.inl ⟨rfl, rfl⟩⟩ h
  simp [symVal, Loc.move]

/-- What find_base_addr returns. -/
structure Found (p : Program) (n b : Nat) (ent : Option Nat) : Prop where
  derived : p.Derived n b
  noSel : ∀ q i, p.op b ≠ .sel q i
  noMember : ∀ q e, p.op b = .member q e → p.op q = .frame
  ent : ∀ e, ent = some e → ∃ m q, p.Derived n m ∧ p.IsMember m q e
  selects : n ≠ b → p.Selects n

theorem findBase_found {p : Program} :
    ∀ (fuel n : Nat) (ent : Option Nat) (b : Nat) (ent' : Option Nat) (a : Nat),
      p.Derived a n → (∀ e, ent = some e → ∃ m q, p.Derived a m ∧ p.IsMember m q e) →
      (a ≠ n → p.Selects a) →
      findBase p fuel n ent = some (b, ent') → Found p a b ent' := by
  intro fuel
  induction fuel with
  | zero => intro n ent b ent' a _ _ _ h; exact nomatch h
  | succ fuel ih =>
    intro n ent b ent' a ha he hsel h
    simp only [findBase] at h
    split at h
    next q i hop =>
      refine ih q ent b ent' a (derived_trans ha (.sel hop (.refl _))) he ?_ h
      intro _
      by_cases h1 : a = n
      · exact h1 ▸ Or.inl ⟨q, i, hop⟩
      · exact hsel h1
    next q e hop =>
      split at h
      next hf =>
        injection h with h
        injection h with h1 h2
        subst h1 h2
        exact ⟨ha, fun q' i' hh => (by rw [hop] at hh; exact nomatch hh),
          fun q' e' hh => (by rw [hop] at hh; injection hh with h1 h2; exact h1 ▸ hf), he, hsel⟩
      next hf =>
        have hm : p.IsMember n q e := ⟨hop, fun hh => hf hh⟩
        refine ih q (some e) b ent' a (derived_trans ha (.member hm (.refl _))) ?_ ?_ h
        · intro e' hh
          injection hh with hh
          exact ⟨n, q, ha, hh ▸ hm⟩
        · intro _
          by_cases h1 : a = n
          · exact h1 ▸ Or.inr ⟨q, e, hm⟩
          · exact hsel h1
    next h1 h2 =>
      injection h with h
      injection h with h3 h4
      subst h3 h4
      exact ⟨ha, fun q i hh => h1 q i hh, fun q e hh => (h2 q e hh).elim, he, hsel⟩

theorem baseAddr_found {p : Program} {n b : Nat} {ent : Option Nat}
    (h : baseAddr p n = some (b, ent)) : Found p n b ent :=
  findBase_found _ _ _ _ _ _ (.refl _) (fun _ hh => (by cases hh)) (fun hh => (hh rfl).elim) h

/-! Disjoint accesses -/

theorem disjoint_obj {w : Nat} {l1 l2 : Loc w} {s1 s2 : Nat} (h : l1.obj ≠ l2.obj) :
    Disjoint l1 s1 l2 s2 :=
  fun _ ⟨h1, h2⟩ => h (h1.1.symm.trans h2.1)

theorem disjoint_symm {w : Nat} {l1 l2 : Loc w} {s1 s2 : Nat} (h : Disjoint l1 s1 l2 s2) :
    Disjoint l2 s2 l1 s1 :=
  fun b ⟨h1, h2⟩ => h b ⟨h2, h1⟩

/-- Two offsets that differ enough. -/
theorem disjoint_int {w : Nat} (l : Loc w) (d : BitVec w) (o1 o2 : Int) (s1 s2 : Nat)
    (h1 : o1 + s1 ≤ o2) (h2 : o2 + s2 ≤ o1 + 2 ^ w) :
    Disjoint (l.move (BitVec.ofInt w o1 + d)) s1 (l.move (BitVec.ofInt w o2 + d)) s2 := by
  rintro b ⟨⟨_, k1, hk1, e1⟩, ⟨_, k2, hk2, e2⟩⟩
  rw [e1] at e2
  simp only [Loc.move] at e2
  have e3 : BitVec.ofInt w o1 + BitVec.ofNat w k1 = BitVec.ofInt w o2 + BitVec.ofNat w k2 := by
    have : l.off + d + (BitVec.ofInt w o1 + BitVec.ofNat w k1)
        = l.off + d + (BitVec.ofInt w o2 + BitVec.ofNat w k2) := by
      have e4 : ∀ a b : BitVec w, l.off + (a + d) + b = l.off + d + (a + b) := by
        intro a b; ac_rfl
      rw [e4, e4] at e2
      exact e2
    exact BitVec.add_right_inj (l.off + d) |>.1 this
  have e5 : BitVec.ofInt w (o1 + k1) = BitVec.ofInt w (o2 + k2) := by
    rw [BitVec.ofInt_add, BitVec.ofInt_add, BitVec.ofInt_natCast, BitVec.ofInt_natCast]
    exact e3
  have e6 := congrArg BitVec.toNat e5
  simp only [BitVec.toNat_ofInt] at e6
  have hpos : (0 : Int) < ((2 ^ w : Nat) : Int) := by
    have := Nat.two_pow_pos w
    omega
  have hc : ((2 ^ w : Nat) : Int) = 2 ^ w := by simp
  have n1 := Int.emod_nonneg (o1 + k1) (Int.ne_of_gt hpos)
  have n2 := Int.emod_nonneg (o2 + k2) (Int.ne_of_gt hpos)
  have e7 : (o1 + k1) % ((2 ^ w : Nat) : Int) = (o2 + k2) % ((2 ^ w : Nat) : Int) := by omega
  have e8 := (Int.emod_emod_of_dvd (o2 + k2 - (o1 + k1)) (Int.dvd_refl ((2 ^ w : Nat) : Int)))
  have e9 : (o2 + k2 - (o1 + k1)) % ((2 ^ w : Nat) : Int) = 0 := by
    rw [Int.sub_emod, e7, Int.sub_self, Int.zero_emod]
  have e10 : (o2 + k2 - (o1 + k1)) % ((2 ^ w : Nat) : Int) = o2 + k2 - (o1 + k1) :=
    Int.emod_eq_of_lt (by omega) (by omega)
  omega

theorem bytes_member {w : Nat} (l : Loc w) (o s t : Nat) (h : o + s ≤ t) {b : Loc w}
    (hb : Bytes (l.move (BitVec.ofNat w o)) s b) : Bytes l t b := by
  obtain ⟨h1, k, hk, h2⟩ := hb
  refine ⟨h1, o + k, by omega, ?_⟩
  rw [h2, Loc.move, BitVec.ofNat_add, BitVec.add_assoc]

/-! Offsets -/

theorem pow_le {w : Nat} (h : w ≤ 64) : (2 ^ (w - 1) : Int) ≤ 2 ^ 63 := by
  have : (2 : Nat) ^ (w - 1) ≤ 2 ^ 63 := Nat.pow_le_pow_right (by decide) (by omega)
  exact_mod_cast this

theorem sameBase_no {o1 o2 : Int} {s1 s2 : Nat} (h : sameBase o1 s1 o2 s2 = .no)
    (l1 : -(2 ^ 63 : Int) ≤ o1) (u1 : o1 + s1 ≤ 2 ^ 63)
    (l2 : -(2 ^ 63 : Int) ≤ o2) (u2 : o2 + s2 ≤ 2 ^ 63)
    (hneg : o1 < 0 → o2 < 0 → (o1 ≤ o2 → o1 + s1 < 0) ∧ (o2 ≤ o1 → o2 + s2 < 0)) :
    o1 + s1 ≤ o2 ∨ o2 + s2 ≤ o1 := by
  have key : ∀ (f l : Int) (s : Nat), f ≤ l → -(2 ^ 63 : Int) ≤ f → f + s ≤ 2 ^ 63 → l ≤ 2 ^ 63 →
      (f < 0 → l < 0 → f + s < 0) → (ulong f + s) % 2 ^ 64 ≤ ulong l → f + s ≤ l := by
    intro f l s h1 h2 h3 h4 h5 h6
    simp only [ulong] at h6
    by_cases hf : f < 0
    · by_cases hl : l < 0
      · have := h5 hf hl
        omega
      · omega
    · omega
  simp only [sameBase] at h
  by_cases hle : o1 ≤ o2
  · simp only [hle, if_true] at h
    split at h
    next hh => exact Or.inl (key _ _ _ hle l1 u1 (by omega) (fun a b => (hneg a b).1 hle) hh)
    next => exact nomatch h
  · simp only [hle, if_false] at h
    split at h
    next hh =>
      exact Or.inr (key _ _ _ (by omega) l2 u2 (by omega)
        (fun a b => (hneg b a).2 (by omega)) hh)
    next => exact nomatch h

/-! Types -/

theorem typeContains_has {p : Program} {w : Nat} (hp : p.Ok w) {t u : Nat} (h : p.Has t u) :
    t ≠ u → ∀ fuel, t < fuel → typeContains p fuel t u = true := by
  induction h with
  | refl => intro h; exact (h rfl).elim
  | @elem t e u ht _ ih =>
    intro _ fuel hf
    cases fuel with
    | zero => omega
    | succ fuel =>
      have := hp.elems _ _ ht
      simp only [typeContains, ht]
      by_cases he : e = u
      · simp [he]
      · simp [ih he fuel (by omega)]
  | @part t ms c m u ht hm _ ih =>
    intro _ fuel hf
    cases fuel with
    | zero => omega
    | succ fuel =>
      have := hp.parts _ _ _ _ ht hm
      simp only [typeContains, ht, List.any_eq_true]
      refine ⟨m, hm, ?_⟩
      by_cases he : m = u
      · simp [he]
      · simp [ih he fuel (by omega)]

theorem has_leaf {p : Program} {t u : Nat} (h : p.Has t u) (h1 : ∀ e, p.ty t ≠ .array e)
    (h2 : ∀ ms c, p.ty t ≠ .compound ms c) : t = u := by
  cases h with
  | refl => rfl
  | elem h _ => exact (h1 _ h).elim
  | part h _ _ => exact (h2 _ _ h).elim

theorem differentTypes_no {p : Program} {w : Nat} (hp : p.Ok w) {derefs t1 t2 : Nat}
    (h : differentTypes p derefs t1 t2 = some .no) : ¬ p.Related t1 t2 := by
  simp only [differentTypes] at h
  split at h
  · exact nomatch h
  next hne =>
    cases hd : deref p derefs t1 t2 with
    | none => rw [hd] at h; exact nomatch h
    | some u =>
      obtain ⟨u1, u2⟩ := u
      rw [hd] at h
      simp only at h
      rintro hrel
      cases derefs with
      | zero => exact nomatch hd
      | succ derefs =>
        simp only [deref] at hd
        split at hd
        next q1 q2 e1 e2 =>
          rcases hrel with hh | hh | ⟨⟨ms, hh⟩, _⟩
          · exact hne (has_leaf hh (by simp [e1]) (by simp [e1]))
          · exact hne (has_leaf hh (by simp [e2]) (by simp [e2])).symm
          · rw [e1] at hh; exact nomatch hh
        next hnp =>
          injection hd with hd
          injection hd with h1 h2
          subst h1 h2
          rcases hrel with hh | hh | ⟨⟨ms, hh1⟩, ⟨ms', hh2⟩, hh⟩
          · rw [typeContains_has hp hh hne _ (by omega)] at h
            exact nomatch h
          · rw [typeContains_has hp hh (fun h => hne h.symm) _ (by omega)] at h
            simp at h
          · have c1 : isClass p t1 = true := by simp [isClass, hh1]
            have c2 : isClass p t2 = true := by simp [isClass, hh2]
            have c3 : (p.subclass t1 t2 || p.subclass t2 t1) = true := by
              rcases hh with hh | hh <;> simp [hh]
            rw [c1, c2, c3] at h
            split at h
            · exact nomatch h
            · exact nomatch h

theorem typeBased_no {p : Program} {w : Nat} (hp : p.Ok w) {o : Options} {derefs t1 t2 : Nat}
    (hptr : isPointer p t1 = isPointer p t2)
    (h : typeBased p o derefs t1 t2 = some .no) :
    o.typeBased = true ∧ ¬ p.Related t1 t2 := by
  simp only [typeBased] at h
  split at h
  · exact nomatch h
  next ho =>
    refine ⟨by simpa using ho, ?_⟩
    split at h
    · exact nomatch h
    split at h
    next hh => simp [hptr] at hh
    split at h
    next a1 r1 a2 r2 e1 e2 =>
      have hleaf : p.Related t1 t2 → t1 = t2 := by
        rintro (hh | hh | ⟨⟨ms, hh⟩, _⟩)
        · exact has_leaf hh (by simp [e1]) (by simp [e1])
        · exact (has_leaf hh (by simp [e2]) (by simp [e2])).symm
        · rw [e1] at hh; exact nomatch hh
      split at h
      next hne =>
        intro hr
        have := hleaf hr
        subst this
        rw [e1] at e2
        injection e2 with e2 _
        exact hne e2
      split at h
      next hne =>
        intro hr
        have := hleaf hr
        subst this
        rw [e1] at e2
        injection e2 with _ e2
        exact hne e2
      exact differentTypes_no hp h
    exact differentTypes_no hp h

/-! Classes of pointers -/

/-- What is known about the object of an address from its base. -/
inductive View (p : Program) (o : Obj) (n b : Nat) (m : Class) : Prop
  | var (e : Nat) (c : Cls) : p.IsVar b e → o = .var e → p.root e = e → m = ofEntity c (p.ent e) →
      (p.ent e).array = false →
      (c = .globalvar ∧ (∃ e', p.op b = .address e') ∧ (p.ent e).place = .global ∨
        c = .tls ∧ (p.ent e).place = .tls ∨
        c = .localvar ∧ (∃ q e', p.op b = .member q e') ∧ (p.ent e).place = .localVar ∨
        c = .argument ∧ (p.ent e).place = .param) → View p o n b m
  | ptr : m.cls = .pointer → m.nottaken = false → m.prim = false →
      (∀ e, o = .var (p.root e) → (p.ent e).taken = true) → View p o n b m
  | malloc : m.cls = .malloced → m.nottaken = false → m.prim = false → p.op b = .malloc →
      o = .heap b → View p o n b m
  | const (v : Int) : m.cls = .globaladdr → m.nottaken = false → m.prim = false →
      p.op b = .const v → v ≠ 0 → n = b → o = .abs → View p o n b m

theorem view {p : Program} {w : Nat} (hp : p.Ok w) (x : Exec p w) {a n b s : Nat}
    {ent : Option Nat} (ha : x.Access a s) (hpl : x.Plain a) (hd : p.Derived a n)
    (hs : Stop p n) (hf : Found p n b ent) :
    View p (x.loc a).obj n b (classify p n b) := by
  have hab := derived_trans hd hf.derived
  have hobj := derived_obj x hab
  have hroot : ∀ e, p.IsVar b e → p.root e = e := by
    intro e hv
    simp [Program.root, hpl.noAlias _ _ hab hv]
  have hptr : ∀ (_ : p.op b = .proj ∨ p.op b = .other ∨ p.op b = .frame),
      ∀ e, (x.loc a).obj = .var (p.root e) → (p.ent e).taken = true := by
    intro h e he
    exact x.unknown b h e (hobj ▸ he)
  have hari : ((∃ l r, p.op b = .add l r) ∨ ∃ l r, p.op b = .sub l r) →
      ∀ e, (x.loc a).obj = .var (p.root e) → (p.ent e).taken = true := by
    intro h e he
    have hne : n ≠ b := by
      intro hh
      subst hh
      rcases h with ⟨l, r, h⟩ | ⟨l, r, h⟩
      · exact hs.1 _ _ h
      · exact hs.2 _ _ h
    exact hpl.noArith n b hd (hf.selects hne) hf.derived h e (hobj ▸ he)
  cases hb : p.op b with
  | address e =>
    have hv : p.IsVar b e := Or.inl hb
    refine .var e (if (p.ent e).place = .tls then .tls else .globalvar) hv ?_ (hroot e hv) ?_
      (hpl.noArray _ _ hab hv) ?_
    · rw [hobj, x.address _ _ hb, hroot e hv]
    · simp only [classify, hb]
    · rcases hp.globals _ _ hb with h | h <;> simp [h, hb]
  | member q e =>
    have hq := hf.noMember _ _ hb
    have hv : p.IsVar b e := Or.inr ⟨q, hb, hq⟩
    refine .var e (if (p.ent e).place = .param then .argument else .localvar) hv ?_ (hroot e hv) ?_
      (hpl.noArray _ _ hab hv) ?_
    · rw [hobj, x.local_var _ _ _ hb hq, hroot e hv]
    · simp only [classify, hb]
    · rcases hp.locals _ _ _ hb hq with h | h <;> simp [h, hb]
  | sel q i => exact (hf.noSel _ _ hb).elim
  | malloc =>
    refine .malloc ?_ ?_ ?_ hb (by rw [hobj, x.malloc _ hb]) <;> simp [classify, hb]
  | const v =>
    by_cases hv : v = 0
    · subst hv
      exact (ha.valid (by rw [hobj, x.null _ hb])).elim
    · refine .const v ?_ ?_ ?_ hb hv ?_ (by rw [hobj, x.const _ _ hv hb])
      · simp [classify, hb, hv]
      · simp [classify, hb]
      · simp [classify, hb]
      · refine Classical.byContradiction fun hne => ?_
        rcases hpl.constAddr b v n hab hb hv hd hf.derived with h | ⟨l, r, c, h, _⟩
        · exact hne h
        · exact hs.1 _ _ h
  | add l r =>
    exact .ptr (by simp [classify, hb]) (by simp [classify, hb]) (by simp [classify, hb])
      (hari (Or.inl ⟨l, r, hb⟩))
  | sub l r =>
    exact .ptr (by simp [classify, hb]) (by simp [classify, hb]) (by simp [classify, hb])
      (hari (Or.inr ⟨l, r, hb⟩))
  | frame =>
    exact .ptr (by simp [classify, hb]) (by simp [classify, hb]) (by simp [classify, hb])
      (hptr (by simp [hb]))
  | proj =>
    exact .ptr (by simp [classify, hb]) (by simp [classify, hb]) (by simp [classify, hb])
      (hptr (by simp [hb]))
  | other =>
    exact .ptr (by simp [classify, hb]) (by simp [classify, hb]) (by simp [classify, hb])
      (hptr (by simp [hb]))

/-- An address that is marked as part of a compound object. -/
theorem view_comp {p : Program} {w : Nat} (x : Exec p w) {a n b : Nat} {ent : Option Nat}
    (hpl : x.Plain a) (hd : p.Derived a n) (hf : Found p n b ent)
    (hc : (classify p n b).comp = true) {e : Nat} (he : p.root e = e)
    (ho : (x.loc a).obj = .var e) :
    (p.ent e).compound = true ∨ (p.ent e).array = true := by
  have hab := derived_trans hd hf.derived
  have hobj := derived_obj x hab
  have hroot : ∀ e, p.IsVar b e → p.root e = e := by
    intro e hv
    simp [Program.root, hpl.noAlias _ _ hab hv]
  have hsel : selects p n = true →
      (∀ q e, p.op b ≠ .member q e) →
      (p.ent e).compound = true ∨ (p.ent e).array = true := by
    intro hs hnm
    have key : ∀ q, p.Derived n q →
        ((∃ i, p.op n = .sel q i) ∨ ∃ e, p.IsMember n q e) →
        (p.ent e).compound = true ∨ (p.ent e).array = true := by
      intro q hq h
      refine x.aggregate n q h e ?_
      rw [← derived_obj x (derived_trans hd hq), he, ho]
    simp only [selects] at hs
    split at hs
    next q i hn => exact key q (.sel hn (.refl _)) (Or.inl ⟨i, hn⟩)
    next q e' hn =>
      by_cases hq : p.op q = .frame
      · cases hf.derived with
        | refl => exact (hnm _ _ hn).elim
        | addL h => rw [hn] at h; exact nomatch h
        | addR h => rw [hn] at h; exact nomatch h
        | sub h => rw [hn] at h; exact nomatch h
        | sel h => rw [hn] at h; exact nomatch h
        | member h =>
          have h1 := h.1
          rw [hn] at h1
          injection h1 with h1 _
          exact (h.2 (h1 ▸ hq)).elim
      · exact key q (.member ⟨hn, hq⟩ (.refl _)) (Or.inr ⟨e', hn, hq⟩)
    next => exact nomatch hs
  have hvar : ∀ e' c, p.IsVar b e' → (x.loc b).obj = .var (p.root e') →
      classify p n b = ofEntity c (p.ent e') →
      (p.ent e).compound = true ∨ (p.ent e).array = true := by
    intro e' c hv h1 h2
    rw [h2] at hc
    rw [← hobj, ho, hroot e' hv] at h1
    injection h1 with h1
    subst h1
    exact Or.inl hc
  cases hb : p.op b with
  | address e' =>
    exact hvar e' (if (p.ent e').place = .tls then .tls else .globalvar) (Or.inl hb) (by rw [x.address _ _ hb]) (by simp only [classify, hb])
  | member q e' =>
    exact hvar e' (if (p.ent e').place = .param then .argument else .localvar) (Or.inr ⟨q, hb, hf.noMember _ _ hb⟩)
      (by rw [x.local_var _ _ _ hb (hf.noMember _ _ hb)]) (by simp only [classify, hb])
  | sel q i => exact (hf.noSel _ _ hb).elim
  | _ =>
    simp only [classify, hb] at hc
    exact hsel hc (by simp [hb])

end Verif.Lemmas.Alias
