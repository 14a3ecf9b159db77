import Verif.Lemmas.LowerDw
import Verif.Lemmas.LowerDwMem
import Mathlib.Data.Nat.Pairing
/-!
# Properties of the lowering of double words: C80, C81, C82, C83
-/
namespace Verif.Props
open Verif.Spec Verif.Model Verif.Model.IrOpt Verif.Model.LowerDw

variable {P : Params} {N : Names} {m k : IMode} {env env' : Env}

/-! ## C80: the words of an expression -/

/-- the two nodes made for a node of a double word mode yield the low and the high word of its value, and no node made has undefined behaviour -/
theorem lowerDw_two (hP : P.Ok) (hA : Agrees P N env env') (e : Expr m) (ho : e.Ok env) (hs : SizesOk P e) {l : Expr P.wu} {h : Expr (P.high m)}
    (hr : lower P N e = some (.two l h)) : Splits (e.eval env) (l.eval env') (h.eval env') ∧ l.Ok env' ∧ h.Ok env' :=
  (lower_right hP hA e hr ho hs).2

/-- a node of another mode keeps its value -/
theorem lowerDw_one (hP : P.Ok) (hA : Agrees P N env env') (e : Expr m) (ho : e.Ok env) (hs : SizesOk P e) {e' : Expr m}
    (hr : lower P N e = some (.one e')) : e'.eval env' = e.eval env ∧ e'.Ok env' :=
  (lower_right hP hA e hr ho hs).2

/-- what is supported is lowered: to two nodes if it has a double word mode, to one node else -/
theorem lowerDw_total (e : Expr m) (hs : Supported P e) :
    if P.needs m then ∃ l h, lower P N e = some (.two l h) else ∃ e', lower P N e = some (.one e') := by
  obtain ⟨r, hr, hsh⟩ := lower_some (N := N) e hs
  cases r with
  | one e' => rw [if_neg (by simpa [Lowered.Shape] using hsh)]; exact ⟨e', hr⟩
  | two l h => rw [if_pos (show P.needs m = true from hsh)]; exact ⟨l, h, hr⟩

/-- words of 32 bits with shifts modulo 32 -/
abbrev dwParams : Params := ⟨32, 32⟩
/-- the double word mode -/
abbrev mLs : IMode := ⟨true, 64, 64⟩
abbrev mIu32 : IMode := ⟨false, 32, 32⟩
abbrev mIs32 : IMode := ⟨true, 32, 32⟩

theorem dwParams_ok : dwParams.Ok := ⟨⟨by decide, by decide, by decide, Or.inr ⟨by decide, by decide, 5, rfl⟩⟩, by decide, by decide⟩
theorem mLs_valid : mLs.Valid := ⟨by decide, by decide, by decide, Or.inr ⟨by decide, by decide, 6, rfl⟩⟩
theorem mIu32_valid : mIu32.Valid := ⟨by decide, by decide, by decide, Or.inr ⟨by decide, by decide, 5, rfl⟩⟩
theorem mIs32_valid : mIs32.Valid := ⟨by decide, by decide, by decide, Or.inr ⟨by decide, by decide, 5, rfl⟩⟩

/-- one number for a mode and a number -/
def dwCode (m : IMode) (i : Nat) : Nat := Nat.pair (Nat.pair (Nat.pair (if m.signed then 1 else 0) m.bits) m.modulo) i
def dwDecode (c : Nat) : IMode × Nat :=
  (⟨(Nat.unpair (Nat.unpair (Nat.unpair c).1).1).1 == 1, (Nat.unpair (Nat.unpair (Nat.unpair c).1).1).2, (Nat.unpair (Nat.unpair c).1).2⟩,
    (Nat.unpair c).2)

theorem dwDecode_code (m : IMode) (i : Nat) : dwDecode (dwCode m i) = (m, i) := by
  obtain ⟨s, b, o⟩ := m
  unfold dwDecode dwCode
  simp only [Nat.unpair_pair]
  cases s <;> rfl

/-- names that keep the leaves apart -/
def dwNames : Names := ⟨fun m i => 3 * dwCode m i + 2, fun m i => 3 * dwCode m i, fun m i => 3 * dwCode m i + 1⟩

/-- the values of the new leaves -/
def dwEnv (P : Params) (env : Env) : Env := fun m j =>
  let d := dwDecode (j / 3)
  if j % 3 = 0 then BitVec.ofNat m.bits (env d.1 d.2).toNat
  else if j % 3 = 1 then BitVec.ofNat m.bits ((env d.1 d.2).toNat / 2 ^ P.word)
  else env m d.2

/-- the hypothesis about the leaves can be met for all values of the leaves -/
theorem lowerDw_names (P : Params) (env : Env) : Agrees P dwNames env (dwEnv P env) where
  keep m i _ := by
    unfold dwEnv dwNames
    simp only [show (3 * dwCode m i + 2) % 3 = 2 by omega, show (3 * dwCode m i + 2) / 3 = dwCode m i by omega, dwDecode_code]
    rfl
  two m i hn := by
    have hb := needs_bits hn
    have e1 : dwDecode (3 * dwCode m i / 3) = (m, i) := by rw [show (3 * dwCode m i) / 3 = dwCode m i by omega, dwDecode_code]
    have e2 : dwDecode ((3 * dwCode m i + 1) / 3) = (m, i) := by rw [show (3 * dwCode m i + 1) / 3 = dwCode m i by omega, dwDecode_code]
    unfold dwEnv dwNames
    simp only [show (3 * dwCode m i) % 3 = 0 by omega, show (3 * dwCode m i + 1) % 3 = 1 by omega]
    rw [e1, e2]
    refine splits_of_nat hb (x := (env m i).toNat) (Nat.mod_eq_of_lt (env m i).isLt).symm ?_ ?_
    · simp
    · simp

/-- `(x - 3) >> c` for a leaf `x` of 64 bits and a count `c` of 32 bits -/
def dwExample : Expr mLs := .shrs (.add (.leaf mLs 0) (.const (BitVec.ofInt 64 (-3)))) (.leaf mIu32 0)

theorem dwExample_supported : Supported dwParams dwExample :=
  ⟨⟨trivial, trivial⟩, trivial, by
    show if dwParams.needs mLs then _ else _
    rw [if_pos (by decide)]
    exact ⟨rfl, rfl, rfl, 5, rfl⟩⟩
theorem dwExample_ok (env : Env) : dwExample.Ok env :=
  ⟨⟨mLs_valid, mLs_valid⟩, mIu32_valid, ⟨by decide, by decide⟩, fun c hc => by cases hc⟩

/-- the hypotheses hold for this shift, whatever the values of its leaves are -/
example (env : Env) : ∃ l h, lower dwParams dwNames dwExample = some (.two l h) ∧
    Splits (dwExample.eval env) (l.eval (dwEnv dwParams env)) (h.eval (dwEnv dwParams env)) := by
  have := lowerDw_total (N := dwNames) dwExample dwExample_supported
  rw [if_pos (by decide)] at this
  obtain ⟨l, h, hr⟩ := this
  exact ⟨l, h, hr, (lowerDw_two dwParams_ok (lowerDw_names _ env) _ (dwExample_ok env) ⟨⟨trivial, trivial⟩, trivial⟩ hr).1⟩

/-- the value of the example: -5000000000 - 3 shifted by 36 -/
example : dwExample.eval (fun m _ => BitVec.ofInt m.bits (if m.bits = 64 then -5000000000 else 36)) = -1#64 := by decide +kernel

/-- a mode with more than one word but less than two: a value of 24 bits, words of 16 bits; the value of the conversion to a double word is
not what the words say -/
theorem lowerDw_sizes_wrong :
    let P : Params := ⟨16, 16⟩
    let k : IMode := ⟨true, 24, 32⟩
    let m : IMode := ⟨true, 32, 32⟩
    let e : Expr m := .conv m (.const (0x8000#24) : Expr k)
    ∃ l h, lower P dwNames e = some (.two l h) ∧ ¬ Splits (e.eval fun _ _ => 0#_) (l.eval fun _ _ => 0#_) (h.eval fun _ _ => 0#_) := by
  refine ⟨_, _, rfl, ?_⟩
  unfold Splits
  decide +kernel

/-! ## C81: comparisons and conditional jumps -/

/-- the node made for a comparison of double words decides the same -/
theorem lowerDw_cmp (hP : P.Ok) (hA : Agrees P N env env') (r : Rel) (a b : Expr k) (ho : (Expr.cmp r a b).Ok env) (hs : SizesOk P (.cmp r a b)) {e : Expr bmode}
    (hr : lower P N (.cmp r a b) = some (.one e)) : (e.eval env' = 1#1 ↔ relHolds r (k.num (a.eval env)) (k.num (b.eval env)) = true) := by
  rw [(lowerDw_one hP hA _ ho hs hr).1]
  show BitVec.ofBool (relHolds r (k.num (a.eval env)) (k.num (b.eval env))) = 1#1 ↔ _
  cases relHolds r (k.num (a.eval env)) (k.num (b.eval env)) <;> simp

/-- a conditional jump on a comparison of double words takes the same way -/
theorem lowerDw_cond (hP : P.Ok) (hA : Agrees P N env env') (r : Rel) (a b : Expr k) (ha : a.Ok env) (hb : b.Ok env) (sa : SizesOk P a) (sb : SizesOk P b)
    {l l' : Expr P.wu} {h h' : Expr (P.high k)} (h1 : lower P N a = some (.two l h)) (h2 : lower P N b = some (.two l' h')) :
    lowerCond P env' (isEqualityCmp r b) r l h l' h' = relHolds r (k.num (a.eval env)) (k.num (b.eval env)) := by
  obtain ⟨hn, s1, o1, o2⟩ := lower_right hP hA a h1 ha sa
  obtain ⟨-, s2, o3, o4⟩ := lower_right hP hA b h2 hb sb
  have hc := (lowerCmp_right hP hn (r := r) (eq := isEqualityCmp r b) (fun he => isEqualityCmp_inv he env) s1 s2 o1 o2 o3 o4).1
  unfold lowerCmp at hc
  unfold lowerCond
  simp only
  split
  · next he =>
    rw [if_pos he] at hc
    rw [hc]
    cases relHolds r (k.num (a.eval env)) (k.num (b.eval env)) <;> rfl
  · next he =>
    rw [if_neg he] at hc
    simp only [Expr.eval] at hc ⊢
    have key : ∀ x1 x2 x3 x4 : Bool, BitVec.ofBool x1 ||| (BitVec.ofBool x2 &&& BitVec.ofBool x3) = BitVec.ofBool x4 →
      (if decide (BitVec.ofBool x1 = 1#1) = true then true else if decide (BitVec.ofBool x3 = 1#1) = true then decide (BitVec.ofBool x2 = 1#1) else false)
        = x4 := by decide
    exact key _ _ _ _ hc

/-- `x < 2 ^ 32` for signed double words -/
example (env : Env) : ∃ e : Expr bmode, lower dwParams dwNames (.cmp Rel.less (.leaf mLs 0) (.const 0x100000000#64)) = some (.one e) ∧
    (e.eval (dwEnv dwParams env) = 1#1 ↔ (env mLs 0).toInt < 2 ^ 32) := by
  refine ⟨_, rfl, ?_⟩
  rw [lowerDw_cmp dwParams_ok (lowerDw_names dwParams env) Rel.less (.leaf mLs 0) (.const 0x100000000#64 : Expr mLs) ⟨mLs_valid, mLs_valid⟩ ⟨trivial, trivial⟩ rfl]
  rw [show (Expr.leaf mLs 0).eval env = env mLs 0 from rfl, show (Expr.const 0x100000000#64 : Expr mLs).eval env = 0x100000000#64 from rfl]
  simp only [relHolds, Rel.less, IMode.num]
  rw [show (0x100000000#64).toInt = 2 ^ 32 by decide +kernel]
  simp

/-! ## C82: memory -/

/-- the two Loads read the two words of the double word in memory, for both orders of bytes and also around the end of the address space -/
theorem lowerDw_load (bigEndian : Bool) {p : Nat} (n : Nat) (mem : Memory p) (a : BitVec p) :
    Splits (BitVec.ofNat (2 * (8 * n)) (mem.load bigEndian a (2 * n))) (BitVec.ofNat (8 * n) (lowerLoad bigEndian n mem a).1)
      (BitVec.ofNat (8 * n) (lowerLoad bigEndian n mem a).2) := by
  have h256 : (256 : Nat) ^ n = 2 ^ (8 * n) := by rw [Nat.pow_mul]
  refine splits_of_nat rfl (x := mem.load bigEndian a (2 * n)) (BitVec.toNat_ofNat _ _) ?_ ?_
  · have := load_lt bigEndian mem (wordAddrs bigEndian n a).1 n
    rw [BitVec.toNat_ofNat, lowerLoad_eq, ← h256, Nat.mul_comm, Nat.mul_add_mod]
  · have := load_lt bigEndian mem (wordAddrs bigEndian n a).1 n
    have h1 : (lowerLoad bigEndian n mem a).1 < 256 ^ n := this
    rw [BitVec.toNat_ofNat, lowerLoad_eq, ← h256, Nat.mul_comm, Nat.mul_add_div (by omega), Nat.div_eq_of_lt h1, Nat.add_zero]

/-- the two Stores have the effect of the Store of the double word -/
theorem lowerDw_store (bigEndian : Bool) {p n : Nat} (hn : 2 * n ≤ 2 ^ p) {mem mem1 mem2 : Memory p} {a : BitVec p} {v : BitVec (2 * (8 * n))}
    {l h : BitVec (8 * n)} (hv : Splits v l h) (h1 : Memory.Stored bigEndian mem mem1 (wordAddrs bigEndian n a).1 n l.toNat)
    (h2 : Memory.Stored bigEndian mem1 mem2 (wordAddrs bigEndian n a).2 n h.toNat) : Memory.Stored bigEndian mem mem2 a (2 * n) v.toNat := by
  have h256 : (256 : Nat) ^ n = 2 ^ (8 * n) := by rw [Nat.pow_mul]
  unfold Splits at hv
  rw [hv, ← h256]
  exact stored_two bigEndian hn (by rw [h256]; exact l.isLt) (by rw [h256]; exact h.isLt) h1 h2

/-- a load of eight bytes around the end of the address space -/
example : lowerLoad (p := 8) false 4 (fun a => BitVec.ofNat 8 a.toNat) 0xfd#8 = (0x00fffefd, 0x04030201) := by decide +kernel
example : lowerLoad (p := 8) true 4 (fun a => BitVec.ofNat 8 a.toNat) 0xfd#8 = (0x01020304, 0xfdfeff00) := by decide +kernel
/-- a store of two words of two bytes -/
example : let mem : Memory 8 := fun _ => 0#8
    let mem1 : Memory 8 := fun a => if a = 5#8 then 0x34#8 else if a = 6#8 then 0x12#8 else 0#8
    Memory.Stored false mem mem1 (wordAddrs false 2 5#8).1 2 0x1234 := by
  refine ⟨by decide +kernel, ?_⟩
  intro b hb
  have : b ≠ 5#8 ∧ b ≠ 6#8 := ⟨by rintro rfl; exact absurd hb (by decide), by rintro rfl; exact absurd hb (by decide)⟩
  simp [this.1, this.2]

/-! ## C83: builtins that count bits -/

/-- the results for double words, from the results for words: the first bit set, the number of trailing and of leading zeros, the number of bits
set and its parity, and the bytes in reverse order -/
theorem lowerDw_builtins {n w : Nat} (hn : n = 2 * w) {v : BitVec n} {l h : BitVec w} (hs : Splits v l h) :
    (∀ ffs : BitVec w → Nat, (∀ x, FirstSet x (ffs x)) → FirstSet v (lowerFfs ffs l h)) ∧
    (∀ ctz : BitVec w → Nat, (∀ x, x ≠ 0#w → LowestBit x (ctz x)) → v ≠ 0#n → LowestBit v (lowerCtz ctz l h)) ∧
    (∀ clz : BitVec w → Nat, (∀ x, x ≠ 0#w → LeadingZeros x (clz x)) → v ≠ 0#n → LeadingZeros v (lowerClz clz l h)) ∧
    (∀ popcount : BitVec w → Nat, (∀ x, popcount x = bitCount x) → lowerPopcount popcount l h = bitCount v) ∧
    (∀ parity : BitVec w → Nat, (∀ x, parity x = bitCount x % 2) → lowerParity parity l h = bitCount v % 2) := by
  refine ⟨lowerFfs_spec hs, lowerCtz_spec hs, lowerClz_spec hn hs, ?_, ?_⟩
  · intro f hf
    rw [bitCount_splits hn hs, lowerPopcount, hf, hf]
  · intro f hf
    rw [bitCount_splits hn hs, lowerParity, hf, bitCount_xor]

theorem lowerDw_bswap {n k w : Nat} (hw : w = 8 * k) {v r : BitVec n} {l h : BitVec w} (hs : Splits v l h) (bswap : BitVec w → BitVec w)
    (hf : ∀ x, BytesReversed k x (bswap x)) (hr : Splits r (lowerBswap bswap l h).1 (lowerBswap bswap l h).2) : BytesReversed (2 * k) v r :=
  lowerBswap_spec hw hs bswap hf hr

example : Splits 0x0000000100000000#64 0#32 1#32 := by unfold Splits; decide
example : lowerCtz (w := 32) (fun _ => 0) 0#32 1#32 = 32 := by decide
example : LeadingZeros 0x0000000100000000#64 31 := ⟨by decide, by decide, fun j hj => by
  by_cases h : j < 64
  · exact (by decide : ∀ j < 64, 64 - 1 - 31 < j → (0x0000000100000000#64).getLsbD j = false) j h hj
  · exact BitVec.getLsbD_of_ge _ _ (by omega)⟩
example : BytesReversed 2 0x1234#16 0x3412#16 := by unfold BytesReversed; decide

/-- a builtin replaced by one with more bits: right are the first bit set, the number of trailing zeros, the number of bits set of an unsigned
operand, and the parity if the number of additional bits is even -/
theorem lowerBuiltins_widen_partial {w w' : Nat} (hw : w ≤ w') (signed : Bool) (v : BitVec w) :
    (∀ k, FirstSet (widenArg signed w' v) k → FirstSet v k) ∧
    (v ≠ 0#w → ∀ k, LowestBit (widenArg signed w' v) k → LowestBit v k) ∧
    (signed = false → bitCount (widenArg signed w' v) = bitCount v) ∧
    ((w' - w) % 2 = 0 → bitCount (widenArg signed w' v) % 2 = bitCount v % 2) := by
  refine ⟨?_, fun hv k => widen_lowestBit hw signed v hv, ?_, ?_⟩
  · intro k hk
    rcases hk with ⟨h1, h2⟩ | ⟨j, h1, h2⟩
    · exact Or.inl ⟨(widenArg_zero hw signed v).1 h1, h2⟩
    · refine Or.inr ⟨j, h1, widen_lowestBit hw signed v ?_ h2⟩
      intro hv
      have := h2.1
      rw [(widenArg_zero hw signed v).2 hv] at this
      simp at this
  · rintro rfl
    rw [widen_bitCount hw]
    simp
  · intro he
    rw [widen_bitCount hw]
    split <;> omega

/-- the number of leading zeros is too large by the number of additional bits -/
theorem lowerBuiltins_widen_clz_wrong {w w' : Nat} (hw : w < w') (v : BitVec w) {k : Nat} (h : LeadingZeros (widenArg false w' v) k) :
    ¬ LeadingZeros v k ∧ LeadingZeros v (k - (w' - w)) := by
  obtain ⟨h1, h2⟩ := widen_leadingZeros (Nat.le_of_lt hw) v h
  refine ⟨?_, h2⟩
  rintro ⟨h3, h4, h5⟩
  have := h5 (w - 1 - (k - (w' - w))) (by omega)
  rw [h2.2.1] at this
  cases this

/-- the number of bits set of a negative operand is too large by the number of additional bits -/
theorem lowerBuiltins_widen_popcount_wrong {w w' : Nat} (hw : w < w') (v : BitVec w) (hv : v.msb = true) :
    bitCount (widenArg true w' v) = bitCount v + (w' - w) ∧ bitCount (widenArg true w' v) ≠ bitCount v := by
  have := widen_bitCount (Nat.le_of_lt hw) true v
  simp only [hv, Bool.and_self, if_true] at this
  exact ⟨this, by omega⟩

example : (0xffffffff#32).msb = true ∧ bitCount (widenArg true 64 0xffffffff#32) = 64 := by decide +kernel

end Verif.Props
