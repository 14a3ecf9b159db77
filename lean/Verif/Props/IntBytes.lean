import Verif.Model.StrCalcIO
import Verif.Lemmas.TarVal
import Verif.Props.IntArith
/-!
# C10 (byte import/export) and C11 (bit-field import)
-/
namespace Verif.Props
open Verif.Spec Verif.Model

theorem modeBytes_le {E : TvEnv} {md : Mode} (ok : ModeOk E md) : modeBytes md ≤ 2 * E.m := by
  have h1 := ok.le
  have h2 := ok.pos
  unfold modeBytes; split <;> omega

theorem modeBytes_ge (md : Mode) : md.bits ≤ 8 * modeBytes md := by
  unfold modeBytes; split <;> omega

theorem value_emod_svalue {v : List Nat} {b : Nat} (hb : b ≤ 8 * v.length) :
    svalue v % 2 ^ b = (value v : Int) % 2 ^ b := bmod256_emod hb _

/-- C10, contents: importing a byte string yields its little-endian value
reduced to the mode (every byte string at least as long as the mode).
`_partial`: the property also claims that no byte outside the value buffer is
written, which the code violates, see `from_bytes_writes_outside`. -/
theorem from_bytes_spec_partial {E : TvEnv} {md : Mode} (ok : ModeOk E md) (bs : List Nat) (hb : Bytes bs)
    (hl : modeBytes md ≤ bs.length) :
    ∃ t k, newTarvalFromBytes E bs md = some (t, k) ∧
      Denotes E t md (wrap md.signed md.bits (value (bs.take (modeBytes md)))) := by
  have hm := modeBytes_le ok
  have hbits := modeBytes_ge md
  have hlen : (bs.take (modeBytes md)).length = modeBytes md := by rw [List.length_take]; omega
  refine ⟨_, _, by unfold newTarvalFromBytes scValFromBytes; rw [if_pos (by omega)]; rfl, ?_⟩
  have l2 : (bs.take (modeBytes md) ++ scZero (2 * E.m - (bs.take (modeBytes md)).length)).length = 2 * E.m := by
    rw [List.length_append, scZero_length]; omega
  apply getIntTarval_denotes_of_emod ok l2
  · rw [bytes_append]; exact ⟨hb.take _, scZero_bytes _⟩
  · rw [value_emod_svalue (by have := modeOk_lt ok; omega), value_append, scZero_value, Nat.mul_zero, Nat.add_zero]

/-- C10: export followed by import is the identity (any mode size). -/
theorem bytes_roundtrip_partial {E : TvEnv} {t : TarVal} {md : Mode} {x : Int} (h : Denotes E t md x) :
    ∃ bs k, tarvalToBytes t = some bs ∧ bs.length = modeBytes md ∧ Bytes bs ∧ newTarvalFromBytes E bs md = some (t, k) := by
  obtain ⟨buf, rfl, hl, hb, hx⟩ := h.repr
  have hm := modeBytes_le h.ok
  have hbits := modeBytes_ge md
  have hlen : (buf.take (modeBytes md)).length = modeBytes md := by rw [List.length_take]; omega
  obtain ⟨t', k, e, d⟩ := from_bytes_spec_partial h.ok (buf.take (modeBytes md)) (hb.take _) (by omega)
  refine ⟨buf.take (modeBytes md), k, by unfold tarvalToBytes scValToBytes; exact if_pos (by omega), hlen, hb.take _, ?_⟩
  rw [e]
  have hw : wrap md.signed md.bits (value ((buf.take (modeBytes md)).take (modeBytes md))) = x := by
    rw [List.take_of_length_le (by omega), value_take hb]
    apply wrap_unique h.ok.pos h.inRange
    rw [← hx, value_emod_svalue (by have := modeOk_lt h.ok; omega), pow256, Int.natCast_emod]
    have hd : ((2:Int) ^ md.bits) ∣ ((2 ^ (8 * modeBytes md) : Nat) : Int) := by
      rw [← two_pow_cast]; exact pow_dvd_pow 2 hbits
    rw [Int.emod_emod_of_dvd _ hd]
  rw [hw] at d
  rw [denotes_unique d h]

/-- C10: the exported bytes are the two's complement representation. -/
theorem to_bytes_value {E : TvEnv} {t : TarVal} {md : Mode} {x : Int} (h : Denotes E t md x) (h8 : md.bits % 8 = 0) :
    ∃ bs, tarvalToBytes t = some bs ∧ bs.length = md.bits / 8 ∧ (value bs : Int) = x % 2 ^ md.bits := by
  obtain ⟨buf, rfl, hl, hb, hx⟩ := h.repr
  have hm := modeBytes_le h.ok
  have e8 : modeBytes md = md.bits / 8 := by unfold modeBytes; rw [if_neg (by omega)]; omega
  refine ⟨buf.take (modeBytes md), by unfold tarvalToBytes scValToBytes; exact if_pos (by omega), by rw [List.length_take]; omega, ?_⟩
  rw [value_take hb, pow256, e8, show 8 * (md.bits / 8) = md.bits by omega, ← hx,
    value_emod_svalue (by have := modeOk_lt h.ok; omega), Int.natCast_emod, two_pow_cast]

/-- C10 negation: the import of `k` bytes clears `k` bytes behind the value
buffer (`memset` length computed from the unadvanced pointer). -/
theorem from_bytes_writes_outside {E : TvEnv} {md : Mode} (ok : ModeOk E md) (bs : List Nat)
    (hl : modeBytes md ≤ bs.length) :
    ∃ t k, newTarvalFromBytes E bs md = some (t, k) ∧ k = modeBytes md ∧ 0 < k := by
  have hm := modeBytes_le ok
  have hlen : (bs.take (modeBytes md)).length = modeBytes md := by rw [List.length_take]; omega
  refine ⟨_, _, by unfold newTarvalFromBytes scValFromBytes; rw [if_pos (by omega)]; rfl, ?_, ?_⟩
  · simp only []; omega
  · have := modeBytes_ge md; have := ok.pos; simp only []; omega

example : newTarvalFromBytes .default [200] modeBu = some (.int modeBu (200 :: scZero 33), 1) := by decide
example : tarvalToBytes (.int modeBu (200 :: scZero 33)) = some [200] := by decide

/-! ## C11 -/

theorem or_eq_add {a b k : Nat} (h : a < 2 ^ k) : a ||| (b * 2 ^ k) = a + b * 2 ^ k := by
  rw [Nat.mul_comm, Nat.or_comm, ← Nat.two_pow_add_eq_or_of_lt h]; omega

theorem cur_or {cur b bit : Nat} (hc : cur < 2 ^ bit) (hbit : bit ≤ 8) (hb : b < 256) :
    cur ||| (b * 2 ^ bit) % 256 = cur + (b * 2 ^ bit) % 256 := by
  have : (b * 2 ^ bit) % 256 = (b % 2 ^ (8 - bit)) * 2 ^ bit := by
    have e : 256 = 2 ^ (8 - bit) * 2 ^ bit := by rw [← Nat.pow_add, Nat.sub_add_cancel hbit]
    rw [e, Nat.mul_mod_mul_right]
  rw [this, or_eq_add hc]

theorem fromBitsMid_spec (n bit : Nat) (hbit : bit < 8) :
    ∀ (mids out : List Nat) (cur : Nat), Bytes mids → Bytes out → cur < 2 ^ bit → out.length + mids.length < n →
      ∃ out' cur', scFromBitsMid n bit mids out cur = some (out', cur') ∧ out'.length = out.length + mids.length ∧
        Bytes out' ∧ cur' < 2 ^ bit ∧
        value out' + 256 ^ out'.length * cur' = value out + 256 ^ out.length * (cur + 2 ^ bit * value mids) := by
  intro mids
  induction mids with
  | nil =>
    intro out cur _ ho hc hn
    exact ⟨out, cur, rfl, rfl, ho, hc, by simp [value]⟩
  | cons b bs ih =>
    intro out cur hm ho hc hn
    obtain ⟨hb, hbs⟩ := bytes_cons.1 hm
    simp only [List.length_cons] at hn
    have p8 : (2:Nat) ^ bit ≤ 2 ^ 7 := Nat.pow_le_pow_right (by decide) (by omega)
    have e1 : cur ||| (b <<< bit) % 256 = cur + (b * 2 ^ bit) % 256 := by
      rw [Nat.shiftLeft_eq]; exact cur_or hc (by omega) hb
    have hlt : cur + (b * 2 ^ bit) % 256 < 256 := by
      rw [← e1]; exact byte_lt _ _ (by omega) (Nat.mod_lt _ (by decide))
    have hdiv : b * 2 ^ bit / 256 < 2 ^ bit := by
      rw [Nat.div_lt_iff_lt_mul (by decide)]
      have := Nat.mul_lt_mul_of_pos_right hb (show 0 < 2 ^ bit by positivity)
      rw [Nat.mul_comm (2 ^ bit)]; exact this
    have e2 : (b <<< bit) >>> 8 % 256 = b * 2 ^ bit / 256 := by
      rw [Nat.shiftLeft_eq, Nat.shiftRight_eq_div_pow]
      apply Nat.mod_eq_of_lt
      omega
    have step : scFromBitsMid n bit (b :: bs) out cur =
        scFromBitsMid n bit bs (out ++ [cur + (b * 2 ^ bit) % 256]) (b * 2 ^ bit / 256) := by
      rw [scFromBitsMid]
      simp only [e1, e2]
      rw [if_pos (by simp; omega)]
    obtain ⟨out', cur', h1, h2, h3, h4, h5⟩ := ih (out ++ [cur + (b * 2 ^ bit) % 256]) (b * 2 ^ bit / 256) hbs
      (by rw [bytes_append]; exact ⟨ho, Bytes.cons hlt Bytes.nil⟩) hdiv (by simp; omega)
    refine ⟨out', cur', by rw [step, h1], by rw [h2]; simp; omega, h3, h4, ?_⟩
    rw [h5, value_append]
    simp only [List.length_append, List.length_singleton, value, Nat.pow_succ]
    have hdm := Nat.div_add_mod (b * 2 ^ bit) 256
    generalize b * 2 ^ bit / 256 = q at *
    generalize hr : b * 2 ^ bit % 256 = r at *
    have : 2 ^ bit * (b + 256 * value bs) = 256 * q + r + 256 * (2 ^ bit * value bs) := by rw [hdm]; ring
    rw [this]; ring

/-- `(x << (32-h))` truncated to 32 bits keeps the low `h` bits of the byte. -/
theorem shl32 {x h : Nat} (hh : h ≤ 32) : (x <<< (32 - h)) % 2 ^ 32 = (x % 2 ^ h) * 2 ^ (32 - h) := by
  rw [Nat.shiftLeft_eq]
  have e : (2:Nat) ^ 32 = 2 ^ h * 2 ^ (32 - h) := by rw [← Nat.pow_add]; congr 1; omega
  rw [e, Nat.mul_mod_mul_right]

theorem finish_spec {n : Nat} {out : List Nat} {w : Nat} (ho : out.length ≤ n) (hb : Bytes out) (hw : value out = w) :
    ∃ r, (if out.length ≤ n then some (out ++ scZero (n - out.length)) else none) = some r ∧
      r.length = n ∧ Bytes r ∧ value r = w :=
  ⟨_, if_pos ho, by rw [List.length_append, scZero_length]; omega, by rw [bytes_append]; exact ⟨hb, scZero_bytes _⟩,
    by rw [value_append, scZero_value, Nat.mul_zero, Nat.add_zero, hw]⟩

theorem drop_cons_getD {l : List Nat} {i : Nat} (h : i < l.length) : l.drop i = l.getD i 0 :: l.drop (i + 1) := by
  rw [List.drop_eq_getElem_cons h, List.getD_eq_getElem?_getD, List.getElem?_eq_getElem h, Option.getD_some]

/-- splitting a byte string at the lowest and highest byte of a field -/
theorem field_split {bytes : List Nat} (hb : Bytes bytes) {A B : Nat} (hAB : A < B) (hB : B < bytes.length) :
    value (bytes.drop A) = bytes.getD A 0 + 256 * (value ((bytes.drop (A + 1)).take (B - A - 1)) +
      256 ^ (B - A - 1) * (bytes.getD B 0 + 256 * value (bytes.drop (B + 1)))) := by
  rw [drop_cons_getD (by omega), value]
  congr 2
  conv_lhs => rw [← List.take_append_drop (B - A - 1) (bytes.drop (A + 1))]
  rw [value_append, List.drop_drop, List.length_take, List.length_drop, Nat.min_eq_left (by omega),
    show A + 1 + (B - A - 1) = B by omega, drop_cons_getD hB, value]

/-- C11: `sc_val_from_bits(bytes, from, to)` is the number formed by the bits
`from .. to-1` of the byte string, and no store leaves the value buffer. -/
theorem val_from_bits_spec (n : Nat) (hn : 2 ≤ n) (bytes : List Nat) (hb : Bytes bytes) (frm upto : Nat) (hft : frm < upto)
    (hto : upto ≤ 8 * bytes.length) (hfit : upto - frm ≤ 8 * n) :
    ∃ r, scValFromBits n bytes frm upto = some r ∧ r.length = n ∧ Bytes r ∧
      value r = value bytes / 2 ^ frm % 2 ^ (upto - frm) := by
  have hA : frm = 8 * (frm / 8) + frm % 8 := by omega
  have hlow := hb.getD (frm / 8)
  have hhigh := hb.getD ((upto - 1) / 8)
  have hbB : (upto - 1) / 8 < bytes.length := by omega
  -- the field value in terms of the bytes from the lowest one on
  have key : value bytes / 2 ^ frm % 2 ^ (upto - frm) =
      value (bytes.drop (frm / 8)) % 2 ^ (frm % 8 + (upto - frm)) / 2 ^ (frm % 8) := by
    rw [value_drop hb, pow256, Nat.pow_add, Nat.mod_mul_right_div_self, Nat.div_div_eq_div_mul, ← Nat.pow_add, ← hA]
  rw [key]
  unfold scValFromBits
  rw [if_neg (by omega), if_neg (by omega)]
  simp only
  by_cases hsame : frm / 8 = (upto - 1) / 8
  · rw [if_pos hsame]
    have hh : (upto - 1) % 8 + 1 = frm % 8 + (upto - frm) := by omega
    have e : ((bytes.getD (frm / 8) 0 <<< (32 - ((upto - 1) % 8 + 1))) % 2 ^ 32) >>> (32 - ((upto - 1) % 8 + 1) + frm % 8) % 256
        = value (bytes.drop (frm / 8)) % 2 ^ (frm % 8 + (upto - frm)) / 2 ^ (frm % 8) := by
      rw [shl32 (by omega), Nat.shiftRight_eq_div_pow, Nat.pow_add 2 (32 - _), ← Nat.div_div_eq_div_mul,
        Nat.mul_div_cancel _ (by positivity), drop_cons_getD (by omega), value, hh]
      have hd : (bytes.getD (frm / 8) 0 + 256 * value (bytes.drop (frm / 8 + 1))) % 2 ^ (frm % 8 + (upto - frm)) =
          bytes.getD (frm / 8) 0 % 2 ^ (frm % 8 + (upto - frm)) := by
        have : (256 : Nat) = 2 ^ (frm % 8 + (upto - frm)) * 2 ^ (8 - (frm % 8 + (upto - frm))) := by
          rw [← Nat.pow_add, show frm % 8 + (upto - frm) + (8 - (frm % 8 + (upto - frm))) = 8 by omega]
        rw [this, Nat.mul_assoc, Nat.add_mul_mod_self_left]
      rw [hd]
      apply Nat.mod_eq_of_lt
      exact lt_of_le_of_lt (Nat.div_le_self _ _) (lt_of_le_of_lt (Nat.mod_le _ _) hlow)
    apply finish_spec (by simp; omega)
    · exact Bytes.cons (Nat.mod_lt _ (by decide)) Bytes.nil
    · rw [value, value, Nat.mul_zero, Nat.add_zero, e]
  · rw [if_neg hsame, if_neg (by omega)]
    have hAB : frm / 8 < (upto - 1) / 8 := by omega
    set A := frm / 8 with hAdef
    set B := (upto - 1) / 8 with hBdef
    set l := frm % 8 with hl
    set h := (upto - 1) % 8 + 1 with hh
    set low := bytes.getD A 0
    set high := bytes.getD B 0
    set mids := (bytes.drop (A + 1)).take (B - A - 1) with hmids
    have hmlen : mids.length = B - A - 1 := by
      rw [hmids, List.length_take, List.length_drop]; omega
    have hmb : Bytes mids := (hb.drop _).take _
    -- right-hand side
    have htot : l + (upto - frm) = 8 * (B - A) + h := by omega
    have rhs : value (bytes.drop A) % 2 ^ (l + (upto - frm)) / 2 ^ l =
        low / 2 ^ l + 2 ^ (8 - l) * (value mids + 256 ^ (B - A - 1) * (high % 2 ^ h)) := by
      rw [field_split hb hAB hbB, htot]
      have hml := value_lt hmb
      rw [hmlen] at hml
      set V := value mids with hV
      set R := value (bytes.drop (B + 1))
      have e1 : (256 : Nat) = 2 ^ h * 2 ^ (8 - h) := by
        rw [← Nat.pow_add, show h + (8 - h) = 8 by omega]
      have hhR : (high + 256 * R) % 2 ^ h = high % 2 ^ h := by
        rw [e1, Nat.mul_assoc, Nat.add_mul_mod_self_left]
      have e2 : (2:Nat) ^ (8 * (B - A) + h) = 256 ^ (B - A) * 2 ^ h := by rw [Nat.pow_add, pow256]
      have e3 : low + 256 * (V + 256 ^ (B - A - 1) * (high + 256 * R)) = (low + 256 * V) + 256 ^ (B - A) * (high + 256 * R) := by
        rw [show 256 ^ (B - A) = 256 * 256 ^ (B - A - 1) by rw [← Nat.pow_succ']; congr 1; omega]; ring
      have hlV : low + 256 * V < 256 ^ (B - A) := by
        rw [show 256 ^ (B - A) = 256 * 256 ^ (B - A - 1) by rw [← Nat.pow_succ']; congr 1; omega]; omega
      have e4 : ((low + 256 * V) + 256 ^ (B - A) * (high + 256 * R)) % (256 ^ (B - A) * 2 ^ h) =
          (low + 256 * V) + 256 ^ (B - A) * (high % 2 ^ h) := by
        rw [Nat.mod_mul, Nat.add_mul_mod_self_left, Nat.mod_eq_of_lt hlV, Nat.add_mul_div_left _ _ (by positivity),
          Nat.div_eq_of_lt hlV, Nat.zero_add, hhR]
      rw [e3, e2, e4]
      have e5 : (256 : Nat) = 2 ^ l * 2 ^ (8 - l) := by
        rw [← Nat.pow_add, show l + (8 - l) = 8 by omega]
      have e6 : (low + 256 * V) + 256 ^ (B - A) * (high % 2 ^ h) = low + 2 ^ l * (2 ^ (8 - l) * (V + 256 ^ (B - A - 1) * (high % 2 ^ h))) := by
        rw [show 256 ^ (B - A) = 256 * 256 ^ (B - A - 1) by rw [← Nat.pow_succ']; congr 1; omega]
        rw [← Nat.mul_assoc (2 ^ l), ← e5]; ring
      rw [e6, Nat.add_mul_div_left _ _ (by positivity)]
    rw [rhs]
    have hval : low >>> l % 256 = low / 2 ^ l := by
      rw [Nat.shiftRight_eq_div_pow]
      exact Nat.mod_eq_of_lt (lt_of_le_of_lt (Nat.div_le_self _ _) hlow)
    have hlow2 : low / 2 ^ l < 2 ^ (8 - l) := by
      rw [Nat.div_lt_iff_lt_mul (by positivity), ← Nat.pow_add, show 8 - l + l = 8 by omega]; exact hlow
    have hhb : (2:Nat) ^ h ≤ 2 ^ 8 := Nat.pow_le_pow_right (by decide) (by omega)
    have hhm : high % 2 ^ h < 2 ^ h := Nat.mod_lt _ (by positivity)
    -- common tail, given the state after the lowest byte
    have tail : ∀ (bit : Nat) (out0 : List Nat) (cur0 : Nat), bit < 8 → Bytes out0 → cur0 < 2 ^ bit →
        8 * out0.length + bit = 8 - l → value out0 + 256 ^ out0.length * cur0 = low / 2 ^ l →
        ∃ r, (match scFromBitsMid n bit mids out0 cur0 with
          | none => none
          | some (out, cur) =>
            let hval := ((high <<< (32 - h)) % 2 ^ 32) >>> (32 - h - bit)
            let out := out ++ [cur ||| (hval % 256)]
            let out := if hval >>> 8 ≠ 0 then out ++ [(hval >>> 8) % 256] else out
            if out.length ≤ n then some (out ++ scZero (n - out.length)) else none) = some r ∧
          r.length = n ∧ Bytes r ∧ value r = low / 2 ^ l + 2 ^ (8 - l) * (value mids + 256 ^ (B - A - 1) * (high % 2 ^ h)) := by
      intro bit out0 cur0 hbit ho hc hpos hv0
      obtain ⟨out', cur', h1, h2, h3, h4, h5⟩ := fromBitsMid_spec n bit hbit mids out0 cur0 hmb ho hc (by omega)
      rw [h1]
      simp only
      have hhv : ((high <<< (32 - h)) % 2 ^ 32) >>> (32 - h - bit) = (high % 2 ^ h) * 2 ^ bit := by
        rw [shl32 (by omega), Nat.shiftRight_eq_div_pow]
        rw [show (2:Nat) ^ (32 - h) = 2 ^ bit * 2 ^ (32 - h - bit) by rw [← Nat.pow_add]; congr 1; omega,
          ← Nat.mul_assoc, Nat.mul_div_cancel _ (by positivity)]
      rw [hhv]
      generalize hH : high % 2 ^ h = H at *
      have hH256 : H < 256 := by omega
      have p8 : (2:Nat) ^ bit ≤ 2 ^ 7 := Nat.pow_le_pow_right (by decide) (by omega)
      have eor : cur' ||| H * 2 ^ bit % 256 = cur' + H * 2 ^ bit % 256 := cur_or h4 (by omega) hH256
      have hlt : cur' + (H * 2 ^ bit) % 256 < 256 := by
        rw [← eor]; exact byte_lt _ _ (by omega) (Nat.mod_lt _ (by decide))
      rw [eor, Nat.shiftRight_eq_div_pow]
      have hq : H * 2 ^ bit / 2 ^ 8 < 256 := by
        rw [Nat.div_lt_iff_lt_mul (by decide)]
        have := Nat.mul_lt_mul_of_lt_of_le hH256 p8 (by positivity)
        omega
      have hb1 : Bytes (out' ++ [cur' + H * 2 ^ bit % 256]) := by
        rw [bytes_append]; exact ⟨h3, Bytes.cons hlt Bytes.nil⟩
      have e7 : value out' + 256 ^ out'.length * (cur' + H * 2 ^ bit) =
          low / 2 ^ l + 2 ^ (8 - l) * (value mids + 256 ^ (B - A - 1) * H) := by
        rw [Nat.mul_add, ← Nat.add_assoc, h5, Nat.mul_add, ← Nat.add_assoc, hv0, h2, hmlen]
        have e8 : (2:Nat) ^ (8 - l) = 256 ^ out0.length * 2 ^ bit := by rw [pow256, ← Nat.pow_add, hpos]
        rw [e8, Nat.pow_add]; ring
      have hdm := Nat.div_add_mod (H * 2 ^ bit) 256
      by_cases hz : H * 2 ^ bit / 2 ^ 8 = 0
      · simp only [hz, ne_eq, not_true_eq_false, if_false]
        apply finish_spec (by simp; omega) hb1
        rw [← e7, value_append, value, value, Nat.mul_zero, Nat.add_zero]
        have : H * 2 ^ bit % 256 = H * 2 ^ bit := by
          have : H * 2 ^ bit / 256 = 0 := hz
          omega
        rw [this]
      · simp only [ne_eq, hz, not_false_eq_true, if_true]
        have hlen : out0.length + mids.length + 2 ≤ n := by
          have : 8 < h + bit := by
            by_contra hle
            apply hz
            apply Nat.div_eq_of_lt
            calc H * 2 ^ bit < 2 ^ h * 2 ^ bit := Nat.mul_lt_mul_of_pos_right hhm (by positivity)
              _ = 2 ^ (h + bit) := (Nat.pow_add 2 h bit).symm
              _ ≤ 2 ^ 8 := Nat.pow_le_pow_right (by decide) (by omega)
          omega
        apply finish_spec (by simp; omega)
        · rw [bytes_append]; exact ⟨hb1, Bytes.cons (Nat.mod_lt _ (by decide)) Bytes.nil⟩
        · rw [← e7, value_append, value_append, List.length_append, List.length_singleton]
          simp only [value, Nat.mul_zero, Nat.add_zero]
          rw [Nat.mod_eq_of_lt hq, Nat.pow_succ]
          have : H * 2 ^ bit / 2 ^ 8 = H * 2 ^ bit / 256 := rfl
          rw [this]
          conv_rhs => rw [← hdm]
          ring
    by_cases hl0 : l = 0
    · have : (8 - l) / 8 = 1 := by omega
      have e8 : (8 - l) % 8 = 0 := by omega
      rw [this, if_neg (by decide), e8, hval]
      exact tail 0 [low / 2 ^ l] 0 (by decide) (Bytes.cons (by rw [hl0]; simpa using hlow) Bytes.nil) (by decide)
        (by simp; omega) (by simp [value])
    · have : (8 - l) / 8 = 0 := by omega
      rw [this, if_pos rfl, hval, Nat.mod_eq_of_lt (by omega)]
      exact tail (8 - l) [] (low / 2 ^ l) (by omega) Bytes.nil hlow2 (by simp) (by simp [value])

example : scValFromBits 4 [0xAB, 0xCD, 0xEF] 5 19 = some [0x6D, 0x3E, 0, 0] := by decide
/-- non-vacuity: hypotheses met by the example above -/
example : ∃ r, scValFromBits 4 [0xAB, 0xCD, 0xEF] 5 19 = some r ∧ r.length = 4 ∧ Bytes r ∧
    value r = value [0xAB, 0xCD, 0xEF] / 2 ^ 5 % 2 ^ 14 :=
  val_from_bits_spec 4 (by decide) _ (by simp [Bytes]) 5 19 (by decide) (by decide) (by decide)

end Verif.Props
