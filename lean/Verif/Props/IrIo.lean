import Verif.Model.IrIo
import Mathlib.Tactic.Ring
/-!
# C53, C54: tokens of the textual representation read back unchanged

Every reader is applied to the text of the writer, preceded by any white space and followed by any text; it returns the written value and
leaves the input at the blank that ends the token.
-/
namespace Verif.Props
open Verif.Model.IrIo

/-- white space -/
def Ws (w : List Nat) : Prop := ∀ c ∈ w, c = 32 ∨ c = 9 ∨ c = 10 ∨ c = 13

theorem skipWs_ws {w : List Nat} (hw : Ws w) {c : Nat} (hc : isWs c = false) (r : List Nat) : skipWs (w ++ c :: r) = c :: r := by
  induction w with
  | nil => simp [skipWs, hc]
  | cons a w ih =>
    have ha := hw a (by simp)
    have : isWs a = true := by
      unfold isWs
      rcases ha with rfl | rfl | rfl | rfl <;> rfl
    have ih := ih (fun c hc => hw c (List.mem_cons_of_mem _ hc))
    simpa [skipWs, List.dropWhile_cons, this] using ih

theorem readStringBody_escape (s rest : List Nat) : readStringBody (escape s ++ 34 :: rest) = some (s, rest) := by
  induction s with
  | nil =>
    cases rest with
    | nil => simp [escape, readStringBody]
    | cons => simp [escape, readStringBody]
  | cons c cs ih =>
    unfold escape
    by_cases h10 : c = 10
    · rw [if_pos h10]
      simp [readStringBody, ih, h10]
    · rw [if_neg h10]
      by_cases hq : c = 34 ∨ c = 92
      · rw [if_pos hq]
        have : c ≠ 110 := by omega
        simp [readStringBody, ih, hq, this]
      · rw [if_neg hq]
        have h1 : c ≠ 34 := fun h => hq (.inl h)
        have h2 : c ≠ 92 := fun h => hq (.inr h)
        obtain ⟨d, r, hdr⟩ : ∃ d r, escape cs ++ 34 :: rest = d :: r := by
          cases h : escape cs with
          | nil => exact ⟨_, _, rfl⟩
          | cons a b => exact ⟨_, _, rfl⟩
        rw [List.append_assoc, List.singleton_append, hdr, readStringBody, if_neg h1, if_neg h2, ← hdr, ih]
        rfl

/-- C53: strings -/
theorem string_round_trip {w : List Nat} (hw : Ws w) (s rest : List Nat) :
    readString (w ++ writeString s ++ rest) = some (s, 32 :: rest) := by
  unfold readString writeString
  have : w ++ (34 :: escape s ++ [34, 32]) ++ rest = w ++ 34 :: (escape s ++ 34 :: 32 :: rest) := by simp
  rw [this, skipWs_ws hw (by decide)]
  simp only [if_true]
  exact readStringBody_escape s (32 :: rest)

/-- C53: words without white space -/
theorem symbol_round_trip {w : List Nat} (hw : Ws w) {s : List Nat} (hne : s ≠ []) (hs : ∀ c ∈ s, isWs c = false) (rest : List Nat) :
    readWord (w ++ writeSymbol s ++ rest) = (s, 32 :: rest) := by
  obtain ⟨c, cs, rfl⟩ := List.exists_cons_of_ne_nil hne
  unfold readWord writeSymbol
  have : w ++ (c :: cs ++ [32]) ++ rest = w ++ c :: (cs ++ 32 :: rest) := by simp
  rw [this, skipWs_ws hw (hs c (by simp))]
  have h1 : ∀ (l : List Nat), (∀ c ∈ l, isWs c = false) → (l ++ 32 :: rest).takeWhile (fun c => !isWs c) = l ∧
      (l ++ 32 :: rest).dropWhile (fun c => !isWs c) = 32 :: rest := by
    intro l
    induction l with
    | nil => intro _; constructor <;> simp [isWs]
    | cons a l ih =>
      intro h
      have ha := h a (by simp)
      obtain ⟨i1, i2⟩ := ih (fun c hc => h c (List.mem_cons_of_mem _ hc))
      constructor
      · simp [List.takeWhile_cons, ha, i1]
      · simp [List.dropWhile_cons, ha, i2]
  have h2 := h1 (c :: cs) hs
  rw [List.cons_append] at h2
  simp only [h2.1, h2.2]

/-- C53: identifiers that may be absent -/
theorem string_null_round_trip {w : List Nat} (hw : Ws w) (s : Option (List Nat)) (rest : List Nat) :
    readStringNull (w ++ writeStringNull s ++ rest) = some (s, 32 :: rest) := by
  cases s with
  | none =>
    unfold readStringNull writeStringNull
    have : w ++ [78, 85, 76, 76, 32] ++ rest = w ++ 78 :: (85 :: 76 :: 76 :: 32 :: rest) := by simp
    rw [this, skipWs_ws hw (by decide)]
    have h := symbol_round_trip (w := []) (by simp [Ws]) (s := [78, 85, 76, 76]) (by simp) (by decide) rest
    unfold writeSymbol at h
    simp only [List.nil_append, List.cons_append, if_true] at h ⊢
    rw [h]
    simp
  | some s =>
    unfold readStringNull writeStringNull
    have h := string_round_trip (w := []) (by simp [Ws]) s rest
    rw [List.nil_append] at h
    have e : writeString s ++ rest = 34 :: (escape s ++ 34 :: 32 :: rest) := by simp [writeString]
    rw [List.append_assoc, e, skipWs_ws hw (by decide)]
    rw [e] at h
    simp only [if_true]
    rw [if_neg (by decide), h]
    rfl

theorem decimal_spec (n : Nat) : decimal n ≠ [] ∧ (∀ c ∈ decimal n, isDigit c = true) ∧ digitsValue (decimal n) = n := by
  induction n using Nat.strongRecOn with
  | ind n ih =>
    rw [decimal]
    split
    · rename_i h
      refine ⟨by simp, ?_, by simp [digitsValue]⟩
      intro c hc
      rw [List.mem_singleton.1 hc]
      unfold isDigit
      simp
      omega
    · rename_i h
      obtain ⟨h1, h2, h3⟩ := ih (n / 10) (by omega)
      refine ⟨by simp, ?_, ?_⟩
      · intro c hc
        rcases List.mem_append.1 hc with hc | hc
        · exact h2 c hc
        · rw [List.mem_singleton.1 hc]
          unfold isDigit
          simp
          omega
      · unfold digitsValue at h3 ⊢
        rw [List.foldl_append, h3]
        simp only [List.foldl_cons, List.foldl_nil]
        omega

theorem takeWhile_digits (l rest : List Nat) (h : ∀ c ∈ l, isDigit c = true) :
    (l ++ 32 :: rest).takeWhile isDigit = l ∧ (l ++ 32 :: rest).dropWhile isDigit = 32 :: rest := by
  induction l with
  | nil => constructor <;> simp [isDigit]
  | cons a l ih =>
    have ha := h a (by simp)
    obtain ⟨i1, i2⟩ := ih (fun c hc => h c (List.mem_cons_of_mem _ hc))
    constructor
    · simp [List.takeWhile_cons, ha, i1]
    · simp [List.dropWhile_cons, ha, i2]

/-- C54: longs -/
theorem long_round_trip {w : List Nat} (hw : Ws w) {v : Int} (hv : -2 ^ 63 ≤ v ∧ v < 2 ^ 63) (rest : List Nat) :
    readLong (w ++ writeInt v ++ rest) = some (v, 32 :: rest) := by
  unfold readLong writeInt
  obtain ⟨h1, h2, h3⟩ := decimal_spec v.natAbs
  by_cases hneg : v < 0
  · rw [if_pos hneg]
    have e : w ++ (45 :: decimal v.natAbs ++ [32]) ++ rest = w ++ 45 :: (decimal v.natAbs ++ 32 :: rest) := by simp
    rw [e, skipWs_ws hw (by decide)]
    obtain ⟨t1, t2⟩ := takeWhile_digits _ rest h2
    simp only
    rw [if_pos (by decide), t1, t2]
    have : atol (45 :: decimal v.natAbs) = some v := by
      unfold atol
      simp only [h3]
      have : -((v.natAbs : Nat) : Int) = v := by omega
      rw [this, if_pos hv]
    rw [this]
    rfl
  · rw [if_neg hneg]
    obtain ⟨c, cs, hc⟩ := List.exists_cons_of_ne_nil h1
    rw [hc] at h2 h3 ⊢
    have hcd := h2 c (by simp)
    have e : w ++ (c :: cs ++ [32]) ++ rest = w ++ c :: (cs ++ 32 :: rest) := by simp
    have hcw : isWs c = false := by
      unfold isDigit at hcd
      unfold isWs
      simp at hcd ⊢
      omega
    rw [e, skipWs_ws hw hcw]
    obtain ⟨t1, t2⟩ := takeWhile_digits cs rest (fun c hc => h2 c (List.mem_cons_of_mem _ hc))
    simp only
    rw [if_pos (by simp [hcd]), t1, t2]
    have : atol (c :: cs) = some v := by
      have hc45 : c ≠ 45 := by
        rintro rfl
        exact absurd hcd (by decide)
      unfold atol
      split
      · rename_i heq
        cases heq
        exact absurd rfl hc45
      · rw [h3]
        have : ((v.natAbs : Nat) : Int) = v := by omega
        rw [this, if_pos hv]
    rw [this]
    rfl

/-- C54: ints -/
theorem int_round_trip {w : List Nat} (hw : Ws w) {v : Int} (hv : -2 ^ 31 ≤ v ∧ v < 2 ^ 31) (rest : List Nat) :
    readInt (w ++ writeInt v ++ rest) = some (v, 32 :: rest) := by
  unfold readInt
  rw [long_round_trip hw (by omega)]
  simp only [Option.map_some, Option.some.injEq, Prod.mk.injEq, and_true]
  unfold Int.bmod
  simp only
  split <;> omega

theorem writeNat_eq (v : Nat) : writeNat v = writeInt v := by
  unfold writeNat writeInt
  rw [if_neg (by omega)]
  rfl

/-- C54: unsigned numbers -/
theorem unsigned_round_trip {w : List Nat} (hw : Ws w) {v : Nat} (hv : v < 2 ^ 32) (rest : List Nat) :
    readUnsigned (w ++ writeNat v ++ rest) = some (v, 32 :: rest) := by
  unfold readUnsigned
  rw [writeNat_eq, long_round_trip hw (by omega)]
  simp only [Option.map_some, Option.some.injEq, Prod.mk.injEq, and_true]
  omega

/-- C54, sizes up to 2^32: read as `unsigned` -/
theorem size_round_trip_partial {w : List Nat} (hw : Ws w) {v : Nat} (hv : v < 2 ^ 32) (rest : List Nat) :
    readSizeT (w ++ writeNat v ++ rest) = some (v, 32 :: rest) := unsigned_round_trip hw hv rest

/-- what is missing in `size_round_trip_partial`: every size from 2^32 up to 2^63 reads back as a different number -/
theorem size_round_trip_wrong {w : List Nat} (hw : Ws w) {v : Nat} (hv : 2 ^ 32 ≤ v) (hv' : v < 2 ^ 63) (rest : List Nat) :
    ∃ v', readSizeT (w ++ writeNat v ++ rest) = some (v', 32 :: rest) ∧ v' ≠ v := by
  refine ⟨v % 2 ^ 32, ?_, by omega⟩
  unfold readSizeT readUnsigned
  rw [writeNat_eq, long_round_trip hw (by omega)]
  simp only [Option.map_some, Option.some.injEq, Prod.mk.injEq, and_true]
  omega

/-! ## Sequences of tokens -/

/-- values written to a file -/
inductive Tok
  | long (v : Int)
  | unsigned (v : Nat)
  | str (s : List Nat)
  | strNull (s : Option (List Nat))
  | sym (s : List Nat)
  deriving DecidableEq

def Tok.Ok : Tok → Prop
  | .long v => -2 ^ 63 ≤ v ∧ v < 2 ^ 63
  | .unsigned v => v < 2 ^ 32
  | .sym s => s ≠ [] ∧ ∀ c ∈ s, isWs c = false
  | _ => True

def Tok.write : Tok → List Nat
  | .long v => writeInt v
  | .unsigned v => writeNat v
  | .str s => writeString s
  | .strNull s => writeStringNull s
  | .sym s => writeSymbol s

/-- read a token of the kind of the given one -/
def Tok.readLike : Tok → List Nat → Option (Tok × List Nat)
  | .long _, i => (readLong i).map (fun x => (.long x.1, x.2))
  | .unsigned _, i => (readUnsigned i).map (fun x => (.unsigned x.1, x.2))
  | .str _, i => (readString i).map (fun x => (.str x.1, x.2))
  | .strNull _, i => (readStringNull i).map (fun x => (.strNull x.1, x.2))
  | .sym _, i => some (.sym (readWord i).1, (readWord i).2)

/-- read tokens of the kinds of the given ones, one after the other -/
def readAll : List Tok → List Nat → Option (List Tok × List Nat)
  | [], i => some ([], i)
  | t :: ts, i => (t.readLike i).bind (fun x => (readAll ts x.2).map (fun y => (x.1 :: y.1, y.2)))

/-- C53, C54: any sequence of tokens written one after the other reads back unchanged, when the reader asks for the same kinds in the same
order -/
theorem tokens_round_trip (ts : List Tok) (hok : ∀ t ∈ ts, t.Ok) (rest : List Nat) : ∀ {w : List Nat}, Ws w →
    ∃ w', Ws w' ∧ readAll ts (w ++ ts.flatMap Tok.write ++ rest) = some (ts, w' ++ rest) := by
  induction ts with
  | nil => intro w hw; exact ⟨w, hw, by simp [readAll]⟩
  | cons t ts ih =>
    intro w hw
    have ht := hok t (by simp)
    have hone : t.readLike (w ++ t.write ++ (ts.flatMap Tok.write ++ rest)) = some (t, 32 :: (ts.flatMap Tok.write ++ rest)) := by
      cases t with
      | long v => simp only [Tok.readLike, Tok.write]; rw [long_round_trip hw ht]; rfl
      | unsigned v => simp only [Tok.readLike, Tok.write]; rw [unsigned_round_trip hw ht]; rfl
      | str s => simp only [Tok.readLike, Tok.write]; rw [string_round_trip hw]; rfl
      | strNull s => simp only [Tok.readLike, Tok.write]; rw [string_null_round_trip hw]; rfl
      | sym s => simp only [Tok.readLike, Tok.write]; rw [symbol_round_trip hw ht.1 ht.2]
    obtain ⟨w', hw', h⟩ := ih (fun t ht => hok t (List.mem_cons_of_mem _ ht)) (w := [32]) (by simp [Ws])
    refine ⟨w', hw', ?_⟩
    have e : w ++ (t :: ts).flatMap Tok.write ++ rest = w ++ t.write ++ (ts.flatMap Tok.write ++ rest) := by simp
    rw [e, readAll, hone]
    simp only [Option.bind_some]
    have e2 : 32 :: (ts.flatMap Tok.write ++ rest) = [32] ++ ts.flatMap Tok.write ++ rest := by simp
    rw [e2, h]
    rfl

example : readAll [.str [97, 34, 10, 92], .long (-12), .strNull none, .sym [120]]
    ([32, 10] ++ [Tok.str [97, 34, 10, 92], .long (-12), .strNull none, .sym [120]].flatMap Tok.write ++ [41]) =
    some ([.str [97, 34, 10, 92], .long (-12), .strNull none, .sym [120]], [32, 41]) := by decide +kernel

end Verif.Props
