import Verif.Lemmas.Bejit
/-!
# Properties of the collection of machine code (ir/be/bejit.c)

Fragments do not overlap and are aligned; in memory and in the text every reference holds what the
instruction set wants: jumps reach the fragment, calls the function.
-/
namespace Verif.Props

open Spec.X86 (Item Byte)
open Spec.CodeImage
open Model Model.Bejit
open Lemmas.Bejit

/-- The function is built and its fragments are where the specification wants them. -/
theorem jit_build_eq {junk : Nat → Byte} {pc : Nat} {ps : List Piece} (hpc : 0 < pc)
    (hok : ∀ p ∈ ps, PieceOk pc p) (hw : room pc ps < 2 ^ 32) :
    ∃ c fr, emitFragments junk pc 0 ps = some (c, fr) ∧
      build junk pc ps = some ⟨(places pc 0 ps).2, c, fr, (places pc 0 ps).1⟩ := by
  have ht := total_le_room pc ps
  obtain ⟨⟨c, fr⟩, hr⟩ := emitFragments_some junk hpc ps 0 hok (by omega)
  have hl := layout_eq junk hpc ps 0 0 hok (by omega) (by omega) _ hr
  refine ⟨c, fr, hr, ?_⟩
  unfold build layoutFragments
  rw [hr]
  simp only [Option.bind_eq_bind, Option.bind_some]
  simp only at hl
  rw [hl]
  rfl

theorem places_length (pc : Nat) (ps : List Piece) :
    ∀ pos, (places pc pos ps).1.length = ps.length := by
  induction ps with
  | nil => intro _; rfl
  | cons p ps ih => intro pos; simp [places, ih]

/-- The start of a piece is not before the end of what is in front of it. -/
theorem places_order (pc : Nat) (ps : List Piece) :
    ∀ (pos i a : Nat) (p : Piece), (places pc pos ps).1[i]? = some a → ps[i]? = some p →
      pos ≤ a ∧ a + piecesLen pc p.items ≤ (places pc pos ps).2 ∧
      ∀ (j b : Nat), i < j → (places pc pos ps).1[j]? = some b → a + piecesLen pc p.items ≤ b := by
  induction ps with
  | nil => intro pos i a p h; simp [places] at h
  | cons q ps ih =>
    intro pos i a p ha hp
    have hal := alignTo_bounds q.p2align q.maxSkip pos
    have hb := places_bounds pc ps (alignTo q.p2align q.maxSkip pos + piecesLen pc q.items)
    simp only [places] at ha ⊢
    cases i with
    | zero =>
      simp only [List.getElem?_cons_zero, Option.some.injEq] at ha hp
      subst ha hp
      refine ⟨hal.1, by omega, ?_⟩
      intro j b hj hb'
      obtain ⟨j, rfl⟩ : ∃ k, j = k + 1 := ⟨j - 1, by omega⟩
      rw [List.getElem?_cons_succ] at hb'
      have hlt : j < ps.length := by
        have := (List.getElem?_eq_some_iff.1 hb').1
        rwa [places_length] at this
      have := ih _ j b ps[j] hb' (List.getElem?_eq_getElem hlt)
      exact this.1
    | succ i =>
      rw [List.getElem?_cons_succ] at ha hp
      have h := ih _ i a p ha hp
      refine ⟨by omega, h.2.1, ?_⟩
      intro j b hj hb'
      obtain ⟨j, rfl⟩ : ∃ k, j = k + 1 := ⟨j - 1, by omega⟩
      rw [List.getElem?_cons_succ] at hb'
      exact h.2.2 j b (by omega) hb'

/-- The end of what is in front of piece `i`. -/
def endBefore (pc : Nat) (addrs : List Nat) (ps : List Piece) : Nat → Nat
  | 0 => 0
  | i + 1 =>
      match addrs[i]?, ps[i]? with
      | some a, some p => a + piecesLen pc p.items
      | _, _ => 0

theorem places_align (pc : Nat) (ps : List Piece) :
    ∀ (pos i a : Nat) (p : Piece), (places pc pos ps).1[i]? = some a → ps[i]? = some p →
      a = alignTo p.p2align p.maxSkip
        (if i = 0 then pos else endBefore pc (places pc pos ps).1 ps i) := by
  induction ps with
  | nil => intro pos i a p h; simp [places] at h
  | cons q ps ih =>
    intro pos i a p ha hp
    simp only [places] at ha ⊢
    cases i with
    | zero =>
      simp only [List.getElem?_cons_zero, Option.some.injEq] at ha hp
      subst ha hp
      simp
    | succ i =>
      rw [List.getElem?_cons_succ] at ha hp
      have h := ih _ i a p ha hp
      rw [h]
      rw [if_neg (show ¬ i + 1 = 0 by simp)]
      cases i with
      | zero => simp [endBefore]
      | succ i => simp [endBefore]

/-- C109: the layout.  A function is always laid out; fragments keep their order and do not
overlap, the last one ends inside of the function, and each one starts at the first multiple of its
alignment behind its predecessor if that takes at most `max_skip` bytes, else directly behind. -/
theorem jit_layout {junk : Nat → Byte} {pc : Nat} {ps : List Piece} (hpc : 0 < pc)
    (hok : ∀ p ∈ ps, PieceOk pc p) (hw : room pc ps < 2 ^ 32) :
    ∃ f, build junk pc ps = some f ∧ f.addrs.length = ps.length ∧
      ∀ (i a : Nat) (p : Piece), f.addrs[i]? = some a → ps[i]? = some p →
        a + piecesLen pc p.items ≤ f.size ∧
        (∀ (j b : Nat), i < j → f.addrs[j]? = some b → a + piecesLen pc p.items ≤ b) ∧
        (let e := endBefore pc f.addrs ps i
         e ≤ a ∧ ((2 ^ p.p2align ∣ a ∧ a - e ≤ p.maxSkip ∧ a - e < 2 ^ p.p2align) ∨
           (a = e ∧ ∀ b, e ≤ b → 2 ^ p.p2align ∣ b → p.maxSkip < b - e))) := by
  obtain ⟨c, fr, _, hbu⟩ := jit_build_eq (junk := junk) hpc hok hw
  refine ⟨_, hbu, places_length pc ps 0, ?_⟩
  intro i a p ha hp
  have ho := places_order pc ps 0 i a p ha hp
  refine ⟨ho.2.1, ho.2.2, ?_⟩
  have h := places_align pc ps 0 i a p ha hp
  have he : (if i = 0 then 0 else endBefore pc (places pc 0 ps).1 ps i) =
      endBefore pc (places pc 0 ps).1 ps i := by
    cases i <;> simp [endBefore]
  rw [he] at h
  dsimp only
  generalize endBefore pc (places pc 0 ps).1 ps i = e at h ⊢
  have hnb := next_bounds p.p2align e
  unfold alignTo at h
  dsimp only at h
  by_cases hs : (e + (2 ^ p.p2align - 1)) / 2 ^ p.p2align * 2 ^ p.p2align - e ≤ p.maxSkip
  · rw [if_pos hs] at h
    rw [h]
    exact ⟨hnb.2.1, .inl ⟨hnb.1, hs, by omega⟩⟩
  · rw [if_neg hs] at h
    refine ⟨by omega, .inr ⟨h, ?_⟩⟩
    intro b hb hd
    by_cases hlt : b < e + 2 ^ p.p2align
    · rw [multiple_unique hd hnb.1 hb hlt hnb.2.1 hnb.2.2]
      omega
    · omega

/-! ## Memory -/

theorem imageFrom_pieces (addrs : List Nat) (sym : Nat → Option (BitVec 32)) (base : BitVec 32)
    (ps : List Piece) : ∀ (pos : Nat) (m : List Byte), imageFrom addrs sym base pos ps = some m →
      (places 4 pos ps).2 = pos + total 4 ps →
      m.length = total 4 ps ∧
      ∀ (i a : Nat) (p : Piece), (places 4 pos ps).1[i]? = some a → ps[i]? = some p →
        pos ≤ a ∧ ∃ x, itemsBytes addrs sym base a p.items = some x ∧
          (m.drop (a - pos)).take (piecesLen 4 p.items) = x := by
  induction ps with
  | nil =>
    intro pos m h _
    cases h
    exact ⟨rfl, fun i a p h => by simp [places] at h⟩
  | cons q ps ih =>
    intro pos m h hs
    have hal := alignTo_bounds q.p2align q.maxSkip pos
    have hb := places_bounds 4 ps (alignTo q.p2align q.maxSkip pos + piecesLen 4 q.items)
    simp only [places] at hs
    rw [total_cons] at hs
    have hpad : alignTo q.p2align q.maxSkip pos = pos := by omega
    rw [hpad] at hs hb
    simp only [imageFrom] at h
    cases hx : itemsBytes addrs sym base pos q.items with
    | none => rw [hx] at h; simp at h
    | some x =>
      rw [hx] at h
      cases hy : imageFrom addrs sym base (pos + piecesLen 4 q.items) ps with
      | none => rw [hy] at h; simp at h
      | some y =>
        rw [hy] at h
        cases h
        have hxl := itemsBytes_length addrs sym base q.items pos x hx
        obtain ⟨hl, hpc⟩ := ih _ y hy (by omega)
        refine ⟨by rw [List.length_append, hxl, hl, total_cons], ?_⟩
        intro i a p ha hp
        simp only [places, hpad] at ha
        cases i with
        | zero =>
          simp only [List.getElem?_cons_zero, Option.some.injEq] at ha hp
          subst ha hp
          refine ⟨Nat.le_refl _, x, hx, ?_⟩
          rw [Nat.sub_self, List.drop_zero, ← hxl, List.take_left]
        | succ i =>
          rw [List.getElem?_cons_succ] at ha hp
          obtain ⟨h1, z, hz, he⟩ := hpc i a p ha hp
          refine ⟨by omega, z, hz, ?_⟩
          rw [← he, show a - pos = x.length + (a - (pos + piecesLen 4 q.items)) by omega,
            ← List.drop_drop, List.drop_left]

/-- C109: what is in memory.  If the function is written to a buffer of its size, each fragment
stands at its address, with every reference filled in. -/
theorem jit_memory_contents {junk : Nat → Byte} {ps : List Piece} {f : Function}
    {ent : Nat → Option (BitVec 32)} {base : BitVec 32} {buf m : List Byte}
    (hok : ∀ p ∈ ps, PieceOk 4 p) (hw : room 4 ps + 2 ^ 8 ≤ 2 ^ 32)
    (hf : build junk 4 ps = some f) (hb : buf.length = f.size)
    (hm : emitMemory ent base buf f = some m) :
    m.length = f.size ∧
    ∀ (i a : Nat) (p : Piece), f.addrs[i]? = some a → ps[i]? = some p →
      ∃ x, itemsBytes f.addrs ent base a p.items = some x ∧
        (m.drop a).take (piecesLen 4 p.items) = x := by
  obtain ⟨c, fr, hem, hbu⟩ := jit_build_eq (junk := junk) (pc := 4) (by decide) hok (by omega)
  rw [hbu] at hf
  cases hf
  have ht := total_le_room 4 ps
  have h := emitMemory_eq (places 4 0 ps).1 ent base junk ps 0 0 [] buf hok (by omega) (by omega) hb
    _ hem
  unfold emitMemory at hm
  simp only [List.append_nil] at h
  simp only at hm
  rw [hm] at h
  by_cases hs : (places 4 0 ps).2 = 0 + total 4 ps
  · rw [if_pos hs] at h
    cases hi : imageFrom (places 4 0 ps).1 ent base 0 ps with
    | none => rw [hi] at h; simp at h
    | some y =>
      rw [hi] at h
      simp only [List.take_zero, List.nil_append, Option.map_some, Option.some.injEq] at h
      subst h
      obtain ⟨hl, hp⟩ := imageFrom_pieces _ ent base ps 0 m hi hs
      refine ⟨by simp only; omega, ?_⟩
      intro i a p ha hp'
      obtain ⟨_, x, hx, he⟩ := hp i a p ha hp'
      exact ⟨x, hx, by simpa using he⟩
  · rw [if_neg hs] at h
    simp at h

theorem itemsBytes_append (addrs : List Nat) (sym : Nat → Option (BitVec 32)) (base : BitVec 32)
    (l m : List Item) : ∀ place, itemsBytes addrs sym base place (l ++ m) =
      (itemsBytes addrs sym base place l).bind fun x =>
        (itemsBytes addrs sym base (place + piecesLen 4 l) m).map (x ++ ·) := by
  induction l with
  | nil => intro place; simp [itemsBytes, piecesLen_nil]
  | cons i l ih =>
    intro place
    simp only [List.cons_append, itemsBytes]
    cases itemBytes addrs sym base place i with
    | none => rfl
    | some x =>
      simp only [Option.bind_eq_bind, Option.bind_some]
      rw [ih, piecesLen_cons, ← Nat.add_assoc]
      cases itemsBytes addrs sym base (place + itemLen 4 i) l with
      | none => rfl
      | some y =>
        simp only [Option.bind_some]
        cases itemsBytes addrs sym base (place + itemLen 4 i + piecesLen 4 l) m with
        | none => rfl
        | some z => simp

theorem read32_le32 (x z : List Byte) (v : BitVec 32) (n : Nat) (hn : x.length = n) :
    read32 (x ++ (le32 v ++ z)) n = some v := by
  subst hn
  have h : ∀ k, (x ++ (le32 v ++ z))[x.length + k]? = (le32 v ++ z)[k]? := by
    intro k
    rw [List.getElem?_append_right (by omega)]
    congr 1
    omega
  unfold read32
  rw [show (x ++ (le32 v ++ z))[x.length]? = (le32 v ++ z)[0]? from h 0, h 1, h 2, h 3]
  simp only [le32, List.cons_append, List.getElem?_cons_zero, List.getElem?_cons_succ,
    Option.bind_eq_bind, Option.bind_some, Option.some.injEq]
  ext i hi
  simp only [BitVec.getElem_append, BitVec.getElem_extractLsb']
  by_cases h1 : i < 8
  · simp [h1, BitVec.getLsbD_eq_getElem hi]
  · by_cases h2 : i < 16
    · simp [h1, show i - 8 < 8 by omega, show 8 + (i - 8) = i by omega,
        BitVec.getLsbD_eq_getElem hi]
    · by_cases h3 : i < 24
      · simp [h1, show ¬ i - 8 < 8 by omega, show i - 8 - 8 < 8 by omega,
          show 16 + (i - 8 - 8) = i by omega, BitVec.getLsbD_eq_getElem hi]
      · simp [h1, show ¬ i - 8 < 8 by omega, show ¬ i - 8 - 8 < 8 by omega,
          show 24 + (i - 8 - 8 - 8) = i by omega, BitVec.getLsbD_eq_getElem hi]

theorem read32_take_drop {m y : List Byte} {a n k : Nat} {v : BitVec 32}
    (h : (m.drop a).take n = y) (hv : read32 y k = some v) : read32 m (a + k) = some v := by
  have hk : ∀ j b, y[j]? = some b → m[a + j]? = some b := by
    intro j b hj
    subst h
    have hlt := (List.getElem?_eq_some_iff.1 hj).1
    rw [List.length_take] at hlt
    rw [List.getElem?_take, if_pos (by omega), List.getElem?_drop] at hj
    exact hj
  unfold read32 at hv ⊢
  cases h0 : y[k]? with
  | none => rw [h0] at hv; simp at hv
  | some b0 =>
    cases h1 : y[k + 1]? with
    | none => rw [h0, h1] at hv; simp at hv
    | some b1 =>
      cases h2 : y[k + 2]? with
      | none => rw [h0, h1, h2] at hv; simp at hv
      | some b2 =>
        cases h3 : y[k + 3]? with
        | none => rw [h0, h1, h2, h3] at hv; simp at hv
        | some b3 =>
          rw [h0, h1, h2, h3] at hv
          rw [hk k b0 h0, show a + k + 1 = a + (k + 1) by omega, hk _ b1 h1,
            show a + k + 2 = a + (k + 2) by omega, hk _ b2 h2,
            show a + k + 3 = a + (k + 3) by omega, hk _ b3 h3]
          exact hv

/-- The number at the place of an item. -/
theorem jit_memory_item {junk : Nat → Byte} {ps : List Piece} {f : Function}
    {ent : Nat → Option (BitVec 32)} {base : BitVec 32} {buf m : List Byte}
    (hok : ∀ p ∈ ps, PieceOk 4 p) (hw : room 4 ps + 2 ^ 8 ≤ 2 ^ 32)
    (hf : build junk 4 ps = some f) (hb : buf.length = f.size)
    (hm : emitMemory ent base buf f = some m)
    {i a : Nat} {p : Piece} (ha : f.addrs[i]? = some a) (hp : ps[i]? = some p)
    {l1 l2 : List Item} {it : Item} (hi : p.items = l1 ++ it :: l2) :
    ∃ y, itemBytes f.addrs ent base (a + piecesLen 4 l1) it = some y ∧
      ∀ v, y = le32 v → read32 m (a + piecesLen 4 l1) = some v := by
  obtain ⟨_, h⟩ := jit_memory_contents hok hw hf hb hm
  obtain ⟨x, hx, he⟩ := h i a p ha hp
  rw [hi, itemsBytes_append] at hx
  cases h1 : itemsBytes f.addrs ent base a l1 with
  | none => rw [h1] at hx; simp at hx
  | some x1 =>
    rw [h1] at hx
    simp only [itemsBytes, Option.bind_some] at hx
    cases h2 : itemBytes f.addrs ent base (a + piecesLen 4 l1) it with
    | none => rw [h2] at hx; simp at hx
    | some y =>
      rw [h2] at hx
      cases h3 : itemsBytes f.addrs ent base (a + piecesLen 4 l1 + itemLen 4 it) l2 with
      | none => rw [h3] at hx; simp at hx
      | some z =>
        rw [h3] at hx
        simp only [Option.bind_eq_bind, Option.bind_some, Option.map_some, Option.some.injEq] at hx
        refine ⟨y, rfl, ?_⟩
        intro v hv
        apply read32_take_drop he
        rw [← hx, hv]
        exact read32_le32 x1 z v _ (itemsBytes_length _ _ _ l1 a x1 h1)

/-- C109: references in memory.  The displacement of a jump, added to the address of the next
instruction, is the address of the fragment; that of a call the address of the function; an absolute
reference is the address of the entity plus the offset. -/
theorem jit_memory_references {junk : Nat → Byte} {ps : List Piece} {f : Function}
    {ent : Nat → Option (BitVec 32)} {base : BitVec 32} {buf m : List Byte}
    (hok : ∀ p ∈ ps, PieceOk 4 p) (hw : room 4 ps + 2 ^ 8 ≤ 2 ^ 32)
    (hf : build junk 4 ps = some f) (hb : buf.length = f.size)
    (hm : emitMemory ent base buf f = some m)
    {i a : Nat} {p : Piece} (ha : f.addrs[i]? = some a) (hp : ps[i]? = some p)
    {l1 l2 : List Item} {it : Item} (hi : p.items = l1 ++ it :: l2) :
    let place := a + piecesLen 4 l1
    (∀ k n, it = .frag k n (-4) → ∃ t v, f.addrs[n]? = some t ∧ read32 m place = some v ∧
      base + BitVec.ofNat 32 (place + 4) + v = base + BitVec.ofNat 32 t) ∧
    (∀ e, it = .reloc 2 e (-4) → ∃ t v, ent e = some t ∧ read32 m place = some v ∧
      base + BitVec.ofNat 32 (place + 4) + v = t) ∧
    (∀ k e off, it = .reloc k e off → k ≠ 2 → ∃ t, ent e = some t ∧
      read32 m place = some (t + off)) := by
  dsimp only
  obtain ⟨y, hy, hr⟩ := jit_memory_item hok hw hf hb hm ha hp hi
  generalize a + piecesLen 4 l1 = place at hy hr
  have e4 : BitVec.ofNat 32 (place + 4) = BitVec.ofNat 32 place + 4#32 := by
    rw [BitVec.ofNat_add]
  have em : (-4 : BitVec 32) = -(4#32) := rfl
  refine ⟨?_, ?_, ?_⟩
  · rintro k n rfl
    simp only [itemBytes] at hy
    cases ht : f.addrs[n]? with
    | none => rw [ht] at hy; simp at hy
    | some t =>
      rw [ht] at hy
      cases hy
      refine ⟨t, _, rfl, hr _ rfl, ?_⟩
      rw [e4, em]
      generalize BitVec.ofNat 32 place = x
      generalize BitVec.ofNat 32 t = z
      rw [BitVec.sub_eq_add_neg]
      have : base + (x + 4#32) + (z + -(4#32) + -x) = base + z + (x + -x) + (4#32 + -(4#32)) := by
        ac_rfl
      rw [this, BitVec.add_right_neg, BitVec.add_right_neg]
      simp
  · rintro e rfl
    simp only [itemBytes] at hy
    cases ht : ent e with
    | none => rw [ht] at hy; simp at hy
    | some t =>
      rw [ht] at hy
      cases hy
      refine ⟨t, _, rfl, hr _ rfl, ?_⟩
      rw [e4, em, if_pos trivial]
      generalize BitVec.ofNat 32 place = x
      rw [BitVec.sub_eq_add_neg, BitVec.neg_add, BitVec.sub_eq_add_neg]
      have : base + (x + 4#32) + (t + -(4#32) + (-base + -x)) =
          t + (x + -x) + (4#32 + -(4#32)) + (base + -base) := by
        ac_rfl
      rw [this, BitVec.add_right_neg, BitVec.add_right_neg, BitVec.add_right_neg]
      simp
  · rintro k e off rfl hk
    simp only [itemBytes] at hy
    cases ht : ent e with
    | none => rw [ht] at hy; simp at hy
    | some t =>
      rw [ht] at hy
      cases hy
      refine ⟨t, rfl, ?_⟩
      have := hr _ rfl
      rw [if_neg hk] at this
      rw [this]
      simp

/-- C109 (partial): the function is written if no fragment has to be moved to be aligned. -/
theorem jit_memory_written_partial {junk : Nat → Byte} {ps : List Piece} {f : Function}
    {ent : Nat → Option (BitVec 32)} {base : BitVec 32} {buf : List Byte}
    (hok : ∀ p ∈ ps, PieceOk 4 p) (hw : room 4 ps + 2 ^ 8 ≤ 2 ^ 32)
    (hf : build junk 4 ps = some f) (hb : buf.length = f.size)
    (hpad : f.size = total 4 ps)
    (hfr : ∀ p ∈ ps, ∀ k n off, .frag k n off ∈ p.items → n < ps.length)
    (hent : ∀ p ∈ ps, ∀ k e off, .reloc k e off ∈ p.items → (ent e).isSome = true) :
    ∃ m, emitMemory ent base buf f = some m := by
  obtain ⟨c, fr, hem, hbu⟩ := jit_build_eq (junk := junk) (pc := 4) (by decide) hok (by omega)
  rw [hbu] at hf
  cases hf
  have ht := total_le_room 4 ps
  have h := emitMemory_eq (places 4 0 ps).1 ent base junk ps 0 0 [] buf hok (by omega) (by omega) hb
    _ hem
  unfold emitMemory
  simp only [List.append_nil] at h
  simp only at hpad ⊢
  rw [h, if_pos (by omega)]
  have hlen := places_length 4 ps 0
  generalize (places 4 0 ps).1 = addrs at hlen
  rw [← hlen] at hfr
  clear h hbu hem hpad hb hok hw ht hlen
  have hitems : ∀ (l : List Item) (place : Nat),
      (∀ k n off, .frag k n off ∈ l → n < addrs.length) →
      (∀ k e off, .reloc k e off ∈ l → (ent e).isSome = true) →
      ∃ x, itemsBytes addrs ent base place l = some x := by
    intro l
    induction l with
    | nil => intro place _ _; exact ⟨_, rfl⟩
    | cons i l ih =>
      intro place h1 h2
      obtain ⟨y, hy⟩ := ih (place + itemLen 4 i) (fun k n o h => h1 k n o (by simp [h]))
        (fun k n o h => h2 k n o (by simp [h]))
      simp only [itemsBytes]
      cases i with
      | byte b => exact ⟨b :: y, by rw [hy]; rfl⟩
      | frag k n o =>
        have hn := h1 k n o (by simp)
        simp only [itemBytes, List.getElem?_eq_getElem hn]
        rw [hy]
        exact ⟨_, rfl⟩
      | reloc k e o =>
        obtain ⟨t, ht⟩ := Option.isSome_iff_exists.1 (h2 k e o (by simp))
        simp only [itemBytes, ht]
        rw [hy]
        exact ⟨_, rfl⟩
  have himg : ∀ pos, ∃ x, imageFrom addrs ent base pos ps = some x := by
    induction ps with
    | nil => intro pos; exact ⟨_, rfl⟩
    | cons p ps ih =>
      intro pos
      obtain ⟨x, hx⟩ := hitems p.items pos (hfr p (by simp)) (hent p (by simp))
      obtain ⟨y, hy⟩ := ih (fun q hq => hent q (by simp [hq])) (fun q hq => hfr q (by simp [hq]))
        (pos + piecesLen 4 p.items)
      simp only [imageFrom]
      rw [hx, hy]
      exact ⟨_, rfl⟩
  obtain ⟨x, hx⟩ := himg 0
  rw [hx]
  exact ⟨_, rfl⟩

/-- C109, refuted: whenever a fragment has to be moved to be aligned, `be_jit_emit_memory` writes
outside of the buffer: the number of bytes of padding is computed as `last_address - address`. -/
theorem jit_memory_padding_wrong {junk : Nat → Byte} {ps : List Piece} {f : Function}
    {ent : Nat → Option (BitVec 32)} {base : BitVec 32} {buf : List Byte}
    (hok : ∀ p ∈ ps, PieceOk 4 p) (hw : room 4 ps + 2 ^ 8 ≤ 2 ^ 32)
    (hf : build junk 4 ps = some f) (hb : buf.length = f.size)
    (hpad : f.size ≠ total 4 ps) : emitMemory ent base buf f = none := by
  obtain ⟨c, fr, hem, hbu⟩ := jit_build_eq (junk := junk) (pc := 4) (by decide) hok (by omega)
  rw [hbu] at hf
  cases hf
  have ht := total_le_room 4 ps
  have h := emitMemory_eq (places 4 0 ps).1 ent base junk ps 0 0 [] buf hok (by omega) (by omega) hb
    _ hem
  unfold emitMemory
  simp only [List.append_nil] at h
  simp only at hpad ⊢
  rw [h, if_neg (by omega)]

/-! ## Text -/

/-- C109: the text.  If the function starts at a multiple of the alignments of its fragments, the
assembler puts every byte and every reference at the address that the layout has computed, which
the displacements of the jumps refer to. -/
theorem jit_asm_correct {junk : Nat → Byte} {ps : List Piece} {f : Function} {start : Nat}
    (hok : ∀ p ∈ ps, PieceOk 5 p) (hst : ∀ p ∈ ps, 2 ^ p.p2align ∣ start)
    (hw : room 5 ps < 2 ^ 32) (hf : build junk 5 ps = some f) :
    (emitAsm f).map (assemble start) = piecesLines f.addrs start f.addrs ps := by
  obtain ⟨c, fr, hem, hbu⟩ := jit_build_eq (junk := junk) (pc := 5) (by decide) hok hw
  rw [hbu] at hf
  cases hf
  have ht := total_le_room 5 ps
  have h := emitAsm_eq (places 5 0 ps).1 start junk ps 0 0 [] hok hst (by omega) (by omega) _ hem
  simpa [emitAsm] using h

/-! ## Records that are too small -/

/-- C109, refuted: the number of the fragment a jump goes to is cut to 16 bits: the result is the
same as for a jump to a fragment 65536 places before. -/
theorem jit_fragment_number_wrong (junk : Nat → Byte) (pc al sk k n : Nat) (o : BitVec 32)
    (l1 l2 : List Item) (p1 p2 : List Piece) :
    build junk pc (p1 ++ ⟨al, sk, l1 ++ .frag k (n + 2 ^ 16) o :: l2⟩ :: p2) =
      build junk pc (p1 ++ ⟨al, sk, l1 ++ .frag k n o :: l2⟩ :: p2) := by
  have hitems : ∀ b now, emitItems junk pc b now (l1 ++ .frag k (n + 2 ^ 16) o :: l2) =
      emitItems junk pc b now (l1 ++ .frag k n o :: l2) := by
    intro b
    induction l1 with
    | nil => intro now; simp [emitItems]
    | cons i l ih =>
      intro now
      cases i <;> simp only [List.cons_append, emitItems] <;> rw [ih]
  have hfr : ∀ now,
      emitFragments junk pc now (p1 ++ ⟨al, sk, l1 ++ .frag k (n + 2 ^ 16) o :: l2⟩ :: p2) =
      emitFragments junk pc now (p1 ++ ⟨al, sk, l1 ++ .frag k n o :: l2⟩ :: p2) := by
    induction p1 with
    | nil => intro now; simp only [List.nil_append, emitFragments, hitems]
    | cons p ps ih => intro now; simp only [List.cons_append, emitFragments, ih]
  unfold build
  rw [hfr]

theorem emitItems_replicate (junk : Nat → Byte) (pc b : Nat) (x : Byte) (l : List Item) (n : Nat) :
    ∀ now, emitItems junk pc b now (List.replicate n (.byte x) ++ l) =
      (List.replicate n x ++ (emitItems junk pc b (now + n) l).1,
       (emitItems junk pc b (now + n) l).2) := by
  induction n with
  | zero => intro now; simp
  | succ n ih =>
    intro now
    simp only [List.replicate_succ, List.cons_append, emitItems]
    rw [ih, show now + 1 + n = now + (n + 1) by omega]

/-- C109, refuted: the offset of a reference is cut to 16 bits.  A loop whose body is a multiple of
65536 bytes before the jump back: the displacement overwrites the first bytes, and the jump keeps
the bytes that happened to be in memory. -/
theorem jit_offset_wrong (junk : Nat → Byte) (ent : Nat → Option (BitVec 32)) (base : BitVec 32)
    (n : Nat) (h4 : 4 ≤ n) (hn : n + 4 < 2 ^ 32) (hmod : n % 2 ^ 16 = 0)
    (buf : List Byte) (hb : buf.length = n + 4) :
    ∃ f, build junk 4 [⟨0, 0, List.replicate n (.byte 0x90) ++ [.frag 128 0 (-4)]⟩] = some f ∧
      emitMemory ent base buf f =
        some (le32 (-4) ++ List.replicate (n - 4) 0x90 ++ blank junk n 4) := by
  have hit : emitItems junk 4 0 0 (List.replicate n (.byte 0x90) ++ [.frag 128 0 (-4)]) =
      (List.replicate n 0x90 ++ blank junk n 4, [⟨128, 0, .fragment 0, -4⟩]) := by
    rw [emitItems_replicate]
    simp only [emitItems, mkReloc, Nat.zero_add, List.append_nil]
    have : sub32 n 0 % 2 ^ 16 = 0 := by unfold sub32; omega
    rw [this]
  generalize hl : List.replicate n (Item.byte 0x90) ++ [.frag 128 0 (-4)] = items at hit
  generalize hc : (List.replicate n (0x90 : Byte) ++ blank junk n 4) = code at hit
  have hcl : code.length = n + 4 := by
    rw [← hc, List.length_append, List.length_replicate, blank_length]
  have hem : emitFragments junk 4 0 [⟨0, 0, items⟩] =
      some (code, [⟨n + 4, 0, 0, [⟨128, 0, .fragment 0, -4⟩]⟩]) := by
    simp only [emitFragments, hit, hcl]
    have : sub32 (0 + (n + 4)) 0 = n + 4 := by unfold sub32; omega
    rw [this]
    simp
  have hly : layoutFragments [⟨n + 4, 0, 0, [⟨128, 0, .fragment 0, -4⟩]⟩] = some ([0], n + 4) := by
    have h1 : roundUp2 0 (2 ^ 0) = some 0 := by decide
    have h2 : sub32 0 0 = 0 := by decide
    have h3 : add32 0 (n + 4) = n + 4 := by unfold add32; omega
    simp only [layoutFragments, layoutFrom, h1, h2, Option.bind_eq_bind, Option.bind_some]
    rw [if_pos (by decide), if_pos (Nat.le_refl _), h3]
  refine ⟨⟨n + 4, code, [⟨n + 4, 0, 0, [⟨128, 0, .fragment 0, -4⟩]⟩], [0]⟩, ?_, ?_⟩
  · unfold build
    rw [hem]
    simp only [Option.bind_eq_bind, Option.bind_some, hly]
  · have hcopy : copyFragment (fun r => relocMem [0] ent (add32 0 r.offset)
        (base + BitVec.ofNat 32 (0 + r.offset)) r) (n + 4) 0 code [⟨128, 0, .fragment 0, -4⟩] =
        some (le32 (-4) ++ List.replicate (n - 4) 0x90 ++ blank junk n 4) := by
      simp only [copyFragment, Nat.le_refl, if_true]
      have hv : relocMem [0] ent (add32 0 0) (base + BitVec.ofNat 32 (0 + 0))
          ⟨128, 0, .fragment 0, -4⟩ = some (le32 (-4)) := rfl
      rw [hv]
      simp only [Option.bind_eq_bind, Option.bind_some]
      rw [if_pos (by rw [le32_length]; omega)]
      simp only [Option.bind_some, Nat.sub_self, Nat.zero_add, List.take_zero, List.nil_append,
        le32_length]
      rw [List.take_of_length_le (by rw [List.length_drop, hcl]), ← hc,
        List.drop_append_of_le_length (by rw [List.length_replicate]; omega), List.drop_replicate,
        List.append_assoc]
    have h0 : sub32 0 0 = 0 := by decide
    have hlen : (le32 (-4) ++ List.replicate (n - 4) (0x90 : Byte) ++ blank junk n 4).length =
        n + 4 := by
      rw [List.length_append, List.length_append, List.length_replicate, le32_length, blank_length]
      omega
    generalize (le32 (-4) ++ List.replicate (n - 4) (0x90 : Byte) ++ blank junk n 4) = x at hlen hcopy ⊢
    have hwr : writeAt buf 0 x = some x := by
      unfold writeAt
      rw [if_pos (by omega), List.drop_of_length_le (by omega), List.append_nil, List.take_zero,
        List.nil_append]
    have hwn : writeNops buf 0 (sub32 0 0) = some buf := by
      rw [h0]
      unfold writeNops
      rw [if_pos rfl]
    unfold emitMemory
    simp only
    rw [emitMemoryFrom, if_pos (Nat.le_refl _), hwn]
    simp only [Option.bind_eq_bind, Option.bind_some]
    rw [hcopy]
    simp only [Option.bind_some, emitMemoryFrom, hwr]

/-! ## Examples -/

/-- A loop that is aligned to 4 bytes: one byte in front, a jump back, a call. -/
def exampleFunction : List Piece :=
  [⟨0, 0, [.byte 0x90]⟩, ⟨2, 3, [.byte 0x90, .byte 0xE9, .frag 128 1 (-4)]⟩,
   ⟨2, 1, [.reloc 2 7 0, .byte 0xC3]⟩]

example : (build (fun _ => 0xCC) 5 exampleFunction).bind emitAsm =
    some [.byte 0x90, .p2align 2 3, .byte 0x90, .byte 0xE9, .long (-6), .call 7 0, .byte 0xC3] := by
  decide

example : (build (fun _ => 0xCC) 5 exampleFunction).map (fun f => (f.addrs, f.size)) =
    some ([0, 4, 10], 16) := by decide

example : PieceOk 5 ⟨2, 3, [.byte 0x90, .byte 0xE9, .frag 128 1 (-4)]⟩ :=
  ⟨by decide, by decide, by simp [ItemOk, Ia32.RELJUMP], by decide⟩

example : room 5 exampleFunction < 2 ^ 32 := by decide

/-- Without padding, to memory at address 0x1000 with a function at 0x2000. -/
example : (build (fun _ => 0xCC) 4 [⟨0, 0, [.byte 0x90, .byte 0xE9, .frag 128 1 (-4)]⟩,
      ⟨0, 0, [.byte 0xE8, .reloc 2 7 (-4), .reloc 1 7 4]⟩]).bind
    (emitMemory (fun _ => some 0x2000) 0x1000 (List.replicate 15 0)) =
    some [0x90, 0xE9, 0, 0, 0, 0, 0xE8, 0xF5, 0x0F, 0, 0, 0x04, 0x20, 0, 0] := by decide

/-- With padding: outside of the buffer. -/
example : (build (fun _ => 0xCC) 4 [⟨0, 0, [.byte 0x90]⟩, ⟨2, 3, [.byte 0xC3]⟩]).bind
    (emitMemory (fun _ => none) 0x1000 (List.replicate 5 0)) = none := by decide

end Verif.Props
