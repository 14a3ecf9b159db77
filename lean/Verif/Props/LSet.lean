import Verif.Model.LSet
import Mathlib.Tactic.Ring
import Mathlib.Tactic.Linarith
/-!
# C37: the linear hashing set implements a finite set

The specification is a plain list of elements without two equal ones; `eq` is
an equivalence that the hash function respects.
-/
namespace Verif.Props
open Verif.Model

variable {K : Type}

/-- `eq` is an equivalence relation respected by `hash`. -/
structure HashEq (hash : K → Nat) (eq : K → K → Bool) : Prop where
  refl : ∀ x, eq x x = true
  symm : ∀ {x y}, eq x y = true → eq y x = true
  trans : ∀ {x y z}, eq x y = true → eq y z = true → eq x z = true
  hash : ∀ {x y}, eq x y = true → hash x = hash y

/-- operations of the set interface -/
inductive SetOp (K : Type)
  | insert (k : K)
  | find (k : K)
  | remove (k : K)

/-- Specification state: the elements present. Specification of the operations:
the answer is the element of the set equal to the key. -/
def specFind (eq : K → K → Bool) (S : List K) (k : K) : Option K := S.find? fun x => eq x k

/-- `S'` results from the abstract operation on `S` with answer `r`. -/
inductive SpecStep (eq : K → K → Bool) : SetOp K → List K → List K → Option K → Prop
  | insertOld {k S x} : x ∈ S → eq x k = true → SpecStep eq (.insert k) S S (some x)
  | insertNew {k S} : (∀ x ∈ S, eq x k = false) → SpecStep eq (.insert k) S (k :: S) (some k)
  | findYes {k S x} : x ∈ S → eq x k = true → SpecStep eq (.find k) S S (some x)
  | findNo {k S} : (∀ x ∈ S, eq x k = false) → SpecStep eq (.find k) S S none
  | remove {k S S' x} : x ∈ S → eq x k = true → S.Perm (x :: S') → SpecStep eq (.remove k) S S' (some x)

/-- no two elements are equal -/
def NoDup (eq : K → K → Bool) (S : List K) : Prop := S.Pairwise fun x y => eq x y = false

/-! ## the representation invariant -/

structure LOk (hash : K → Nat) (T : LSet K) : Prop where
  pow : ∃ k, T.maxp = 256 * 2 ^ k
  plt : T.p < T.maxp
  placed : ∀ b x, x ∈ T.bucket b → T.limit (hash x) = b
  seg : T.maxp + T.p ≤ T.nseg * 256
  cap : T.maxp + T.p ≤ 65536
  segtight : T.nseg * 256 < T.maxp + T.p + 256

theorem LOk.limit_lt {hash : K → Nat} {T : LSet K} (h : LOk hash T) (v : Nat) : T.limit v < T.maxp + T.p := by
  have hp := h.plt
  have h1 := Nat.mod_lt v (show T.maxp > 0 by omega)
  unfold LSet.limit
  simp only
  split
  · next hlt =>
    rw [Nat.mul_comm, Nat.mod_mul] at *
    have : v / T.maxp % 2 = 0 ∨ v / T.maxp % 2 = 1 := by omega
    rcases this with h | h <;> rw [h] <;> omega
  · omega

theorem LOk.segment {hash : K → Nat} {T : LSet K} (h : LOk hash T) (v : Nat) : ¬ (T.limit v / 256 ≥ T.nseg) := by
  have := h.limit_lt v
  have := h.seg
  omega

theorem lsetSplit_eq (mv : K → Bool) (l : List K) : lsetSplit mv l = (l.filter (fun x => !mv x), l.filter mv) := by
  induction l with
  | nil => rfl
  | cons x xs ih =>
    rw [lsetSplit, ih]
    cases h : mv x <;> simp [h]

/-- the hash address after a split step -/
theorem limit_split {T : LSet K} (hp : T.p < T.maxp) (v : Nat) :
    let T' : LSet K := { T with
      p := (if T.p + 1 = T.maxp then (0, 2 * T.maxp) else (T.p + 1, T.maxp)).1
      maxp := (if T.p + 1 = T.maxp then (0, 2 * T.maxp) else (T.p + 1, T.maxp)).2 }
    (T.limit v ≠ T.p → T'.limit v = T.limit v) ∧ (T.limit v = T.p → T'.limit v = T.p ∨ T'.limit v = T.maxp + T.p) := by
  intro T'
  have h1 := Nat.mod_lt v (show T.maxp > 0 by omega)
  have h2 : v % (2 * T.maxp) = v % T.maxp ∨ v % (2 * T.maxp) = T.maxp + v % T.maxp := by
    rw [Nat.mul_comm 2, Nat.mod_mul]
    have : v / T.maxp % 2 = 0 ∨ v / T.maxp % 2 = 1 := by omega
    rcases this with h | h <;> rw [h] <;> omega
  by_cases hw : T.p + 1 = T.maxp
  · have e : T'.limit v = v % (2 * T.maxp) := by
      simp only [T', hw, if_true, LSet.limit]
      simp
    rw [e]
    unfold LSet.limit
    simp only
    split <;> omega
  · have e : T'.limit v = if v % T.maxp < T.p + 1 then v % (2 * T.maxp) else v % T.maxp := by
      simp only [T', hw, if_false, LSet.limit]
    rw [e]
    unfold LSet.limit
    simp only
    split <;> split <;> omega

/-- flattening with one bucket changed -/
theorem flatMap_change {f g : Nat → List K} (i : Nat) (hfg : ∀ b, b ≠ i → g b = f b) :
    ∀ n, i < n → ∃ R, ((List.range n).flatMap f).Perm (f i ++ R) ∧ ((List.range n).flatMap g).Perm (g i ++ R) := by
  intro n
  induction n with
  | zero => intro h; omega
  | succ n ih =>
    intro hi
    simp only [List.range_succ, List.flatMap_append, List.flatMap_cons, List.flatMap_nil, List.append_nil]
    by_cases hn : i = n
    · subst hn
      have e : (List.range i).flatMap g = (List.range i).flatMap f := by
        rw [List.flatMap_def, List.flatMap_def]
        congr 1
        apply List.map_congr_left
        intro b hb
        exact hfg b (by have := List.mem_range.1 hb; omega)
      exact ⟨(List.range i).flatMap f, List.perm_append_comm, by rw [e]; exact List.perm_append_comm⟩
    · obtain ⟨R, h1, h2⟩ := ih (by omega)
      refine ⟨R ++ f n, ?_, ?_⟩
      · rw [← List.append_assoc]; exact h1.append_right _
      · rw [hfg n (fun h => hn h.symm), ← List.append_assoc]; exact h2.append_right _

theorem flatMap_range_ge {f : Nat → List K} {n m : Nat} (hnm : n ≤ m) (hf : ∀ b, n ≤ b → f b = []) :
    (List.range m).flatMap f = (List.range n).flatMap f := by
  induction m with
  | zero => have : n = 0 := by omega
            rw [this]
  | succ m ih =>
    by_cases h : n = m + 1
    · rw [h]
    · rw [List.range_succ, List.flatMap_append, ih (by omega)]
      simp [hf m (by omega)]

theorem mem_elems {hash : K → Nat} {T : LSet K} (h : LOk hash T) {x : K} : x ∈ T.elems ↔ x ∈ T.bucket (T.limit (hash x)) := by
  unfold LSet.elems
  rw [List.mem_flatMap]
  constructor
  · rintro ⟨b, _, hx⟩; rw [h.placed b x hx]; exact hx
  · intro hx
    exact ⟨_, List.mem_range.2 (by have := h.limit_lt (hash x); have := h.seg; omega), hx⟩

theorem LOk.bucket_empty {hash : K → Nat} {T : LSet K} (h : LOk hash T) {b : Nat} (hb : T.maxp + T.p ≤ b) : T.bucket b = [] := by
  cases e : T.bucket b with
  | nil => rfl
  | cons x xs =>
    have h1 := h.placed b x (by rw [e]; exact List.mem_cons_self ..)
    have := h.limit_lt (hash x)
    omega

/-- the state after `expand_table` (when it does something), in plain form -/
theorem expand_ok {hash : K → Nat} {T : LSet K} (h : LOk hash T) : LOk hash (T.expand hash) ∧ (T.expand hash).elems.Perm T.elems ∧
    (T.expand hash).nkey = T.nkey := by
  unfold LSet.expand
  by_cases hc : T.maxp + T.p ≥ 65536
  · rw [if_pos hc]; exact ⟨h, List.Perm.refl _, rfl⟩
  rw [if_neg hc]
  have hp := h.plt
  obtain ⟨k, hk⟩ := h.pow
  have hseg := h.seg
  have htight := h.segtight
  have lim := limit_split hp
  have key : ∀ (p maxp nseg : Nat), (if T.p + 1 = T.maxp then (0, 2 * T.maxp) else (T.p + 1, T.maxp)) = (p, maxp) →
      (if (T.maxp + T.p) % 256 = 0 then T.nseg + 1 else T.nseg) = nseg →
      let T' : LSet K := { T with p := p, maxp := maxp, nseg := nseg }
      let r := lsetSplit (fun x => T'.limit (hash x) == T.maxp + T.p) (T.bucket T.p)
      let T2 : LSet K := { T' with bucket := fun b => if b = T.maxp + T.p then r.2 else if b = T.p then r.1 else T.bucket b }
      LOk hash T2 ∧ T2.elems.Perm T.elems ∧ T2.nkey = T.nkey := by
    intro p maxp nseg hpm hns T' r T2
    have hlim : ∀ v, (T.limit v ≠ T.p → T'.limit v = T.limit v) ∧ (T.limit v = T.p → T'.limit v = T.p ∨ T'.limit v = T.maxp + T.p) := by
      intro v
      have := lim v
      rw [hpm] at this
      exact this
    have hsum : maxp + p = T.maxp + T.p + 1 := by
      by_cases hw : T.p + 1 = T.maxp
      · rw [if_pos hw] at hpm; injection hpm with h1 h2; omega
      · rw [if_neg hw] at hpm; injection hpm with h1 h2; omega
    have hp1 : r.1 = (T.bucket T.p).filter (fun x => !(T'.limit (hash x) == T.maxp + T.p)) := by
      show (lsetSplit _ _).1 = _; rw [lsetSplit_eq]
    have hp2 : r.2 = (T.bucket T.p).filter (fun x => T'.limit (hash x) == T.maxp + T.p) := by
      show (lsetSplit _ _).2 = _; rw [lsetSplit_eq]
    have hnseg : T.maxp + T.p + 1 ≤ nseg * 256 ∧ nseg * 256 < T.maxp + T.p + 1 + 256 := by
      rw [← hns]; split <;> omega
    have hnle : T.nseg ≤ nseg := by rw [← hns]; split <;> omega
    refine ⟨⟨?_, ?_, ?_, ?_, ?_, ?_⟩, ?_, rfl⟩
    · show ∃ k, maxp = 256 * 2 ^ k
      by_cases hw : T.p + 1 = T.maxp
      · rw [if_pos hw] at hpm; injection hpm with h1 h2; exact ⟨k + 1, by rw [← h2, hk, Nat.pow_succ]; ring⟩
      · rw [if_neg hw] at hpm; injection hpm with h1 h2; exact ⟨k, by omega⟩
    · show p < maxp
      by_cases hw : T.p + 1 = T.maxp
      · rw [if_pos hw] at hpm; injection hpm with h1 h2; omega
      · rw [if_neg hw] at hpm; injection hpm with h1 h2; omega
    · intro b x hx
      change x ∈ (if b = T.maxp + T.p then r.2 else if b = T.p then r.1 else T.bucket b) at hx
      show T'.limit (hash x) = b
      by_cases h1 : b = T.maxp + T.p
      · rw [if_pos h1, hp2, List.mem_filter] at hx
        rw [h1]; exact beq_iff_eq.1 hx.2
      · rw [if_neg h1] at hx
        by_cases h2 : b = T.p
        · rw [if_pos h2, hp1, List.mem_filter] at hx
          have h3 : T.limit (hash x) = T.p := h.placed _ _ hx.1
          have h4 : T'.limit (hash x) ≠ T.maxp + T.p := by simpa using hx.2
          rcases (hlim (hash x)).2 h3 with h5 | h5
          · rw [h5, h2]
          · exact absurd h5 h4
        · rw [if_neg h2] at hx
          have h3 := h.placed _ _ hx
          rw [(hlim (hash x)).1 (by rw [h3]; exact h2), h3]
    · show maxp + p ≤ nseg * 256; omega
    · show maxp + p ≤ 65536; omega
    · have e1 : T2.nseg = nseg := rfl
      have e2 : T2.maxp = maxp := rfl
      have e3 : T2.p = p := rfl
      rw [e1, e2, e3, hsum]; exact hnseg.2
    · -- elements are preserved: go through three bucket functions on a common range
      unfold LSet.elems
      have hT2 : T2.nseg = nseg := rfl
      rw [hT2]
      have hge : T.nseg * 256 ≤ nseg * 256 := Nat.mul_le_mul_right _ hnle
      rw [← flatMap_range_ge (f := T.bucket) hge (fun b hb => h.bucket_empty (by omega))]
      let g : Nat → List K := fun b => if b = T.p then r.1 else T.bucket b
      obtain ⟨R1, a1, a2⟩ := flatMap_change (f := g) (g := T2.bucket) (T.maxp + T.p) (by
        intro b hb; show (if b = T.maxp + T.p then r.2 else if b = T.p then r.1 else T.bucket b) = _; rw [if_neg hb]) (nseg * 256) (by omega)
      obtain ⟨R2, c1, c2⟩ := flatMap_change (f := T.bucket) (g := g) T.p (by
        intro b hb; show (if b = T.p then r.1 else T.bucket b) = _; rw [if_neg hb]) (nseg * 256) (by omega)
      have e1 : T2.bucket (T.maxp + T.p) = r.2 := if_pos rfl
      have e2 : g (T.maxp + T.p) = [] := by
        show (if T.maxp + T.p = T.p then r.1 else T.bucket (T.maxp + T.p)) = []
        rw [if_neg (by omega), h.bucket_empty (le_refl _)]
      have e3 : g T.p = r.1 := if_pos rfl
      rw [e1] at a2
      rw [e2, List.nil_append] at a1
      rw [e3] at c2
      have hpart : (r.2 ++ r.1).Perm (T.bucket T.p) := by
        rw [hp1, hp2]
        exact List.filter_append_perm _ _
      calc (List.range (nseg * 256)).flatMap T2.bucket
          |>.Perm (r.2 ++ R1) := a2
        _ |>.Perm (r.2 ++ (List.range (nseg * 256)).flatMap g) := a1.symm.append_left _
        _ |>.Perm (r.2 ++ (r.1 ++ R2)) := c2.append_left _
        _ |>.Perm ((r.2 ++ r.1) ++ R2) := by rw [List.append_assoc]
        _ |>.Perm (T.bucket T.p ++ R2) := hpart.append_right _
        _ |>.Perm ((List.range (nseg * 256)).flatMap T.bucket) := c1.symm
  exact key _ _ _ rfl rfl

/-! ## refinement -/

/-- table `T` represents the finite set `S` -/
structure Rep (hash : K → Nat) (eq : K → K → Bool) (T : LSet K) (S : List K) : Prop where
  ok : LOk hash T
  elems : T.elems.Perm S
  count : T.nkey = S.length
  nodup : NoDup eq S

theorem lsetRound_spec (nslots fuel k : Nat) (hk : k + fuel ≤ 17) (hn : nslots ≤ 65536) (hk8 : 256 * 2 ^ k ≤ 65536) :
    ∃ j, lsetRound nslots fuel (256 * 2 ^ k) = 256 * 2 ^ j ∧ 256 * 2 ^ j ≤ 65536 := by
  induction fuel generalizing k with
  | zero => exact ⟨k, rfl, hk8⟩
  | succ fuel ih =>
    rw [lsetRound]
    split
    · next hlt =>
      have e : 2 * (256 * 2 ^ k) = 256 * 2 ^ (k + 1) := by rw [Nat.pow_succ]; ring
      rw [e]
      apply ih (k + 1) (by omega)
      have hk7 : k < 8 := by
        by_contra hge
        have : 2 ^ 8 ≤ 2 ^ k := Nat.pow_le_pow_right (by decide) (by omega)
        omega
      have : 2 ^ (k + 1) ≤ 2 ^ 8 := Nat.pow_le_pow_right (by decide) (by omega)
      omega
    · exact ⟨k, rfl, hk8⟩

/-- a new table represents the empty set, whatever the size hint -/
theorem new_rep (hash : K → Nat) (eq : K → K → Bool) (nslots : Nat) : Rep hash eq (LSet.new nslots : LSet K) [] := by
  have hns : ∃ j, (if nslots > 65536 then 256 else lsetRound nslots 17 256 / 256) = 2 ^ j ∧ 256 * 2 ^ j ≤ 65536 := by
    split
    · exact ⟨8, rfl, by decide⟩
    · next h =>
      obtain ⟨j, h1, h2⟩ := lsetRound_spec nslots 17 0 (by decide) (by omega) (by decide)
      rw [Nat.pow_zero, Nat.mul_one] at h1
      exact ⟨j, by rw [h1, Nat.mul_div_cancel_left _ (by decide)], h2⟩
  obtain ⟨j, hj, hj2⟩ := hns
  have hpos : 0 < 2 ^ j := by positivity
  refine ⟨⟨⟨j, ?_⟩, ?_, ?_, ?_, ?_, ?_⟩, ?_, rfl, List.Pairwise.nil⟩
  · simp only [LSet.new, hj]; ring
  · simp only [LSet.new, hj]; omega
  · intro b x hx; cases hx
  · simp only [LSet.new, hj]; omega
  · simp only [LSet.new, hj]; omega
  · simp only [LSet.new, hj]; omega
  · unfold LSet.elems; simp [LSet.new]

variable {hash : K → Nat} {eq : K → K → Bool}

theorem find_bucket (he : HashEq hash eq) {T : LSet K} (h : LOk hash T) (k : K) :
    (∀ x, (T.bucket (T.limit (hash k))).find? (fun x => eq x k) = some x → x ∈ T.elems ∧ eq x k = true) ∧
    ((T.bucket (T.limit (hash k))).find? (fun x => eq x k) = none → ∀ x ∈ T.elems, eq x k = false) := by
  constructor
  · intro x hx
    have h1 := List.mem_of_find?_eq_some hx
    have h2 := List.find?_some hx
    exact ⟨by rw [mem_elems h, he.hash h2]; exact h1, h2⟩
  · intro hn x hx
    rw [mem_elems h] at hx
    cases hxk : eq x k with
    | false => rfl
    | true =>
      rw [he.hash hxk] at hx
      have := List.find?_eq_none.1 hn x hx
      exact absurd hxk this

/-- C37: lookup answers with the element of the set equal to the key, or nothing. -/
theorem lset_find (he : HashEq hash eq) {T : LSet K} {S : List K} (h : Rep hash eq T S) (k : K) :
    ∃ r, T.find hash eq k = some r ∧ SpecStep eq (.find k) S S r := by
  have hf := find_bucket he h.ok k
  unfold LSet.find
  simp only
  rw [if_neg (h.ok.segment _)]
  refine ⟨_, rfl, ?_⟩
  cases e : (T.bucket (T.limit (hash k))).find? fun x => eq x k with
  | none => exact .findNo fun x hx => hf.2 e x (h.elems.mem_iff.2 hx)
  | some x =>
    obtain ⟨h1, h2⟩ := hf.1 x e
    exact .findYes (h.elems.mem_iff.1 h1) h2

/-- C37: insertion answers with the equal element already present or adds the key. -/
theorem lset_insert (he : HashEq hash eq) {T : LSet K} {S : List K} (h : Rep hash eq T S) (k : K) :
    ∃ T' x S', T.insert hash eq k = some (T', x) ∧ SpecStep eq (.insert k) S S' (some x) ∧ Rep hash eq T' S' := by
  have hf := find_bucket he h.ok k
  have hlt := h.ok.limit_lt (hash k)
  have hseg := h.ok.seg
  unfold LSet.insert
  simp only
  rw [if_neg (h.ok.segment _)]
  cases e : (T.bucket (T.limit (hash k))).find? fun x => eq x k with
  | some x =>
    obtain ⟨h1, h2⟩ := hf.1 x e
    exact ⟨T, x, S, rfl, .insertOld (h.elems.mem_iff.1 h1) h2, h⟩
  | none =>
    have hnew := hf.2 e
    set b0 := T.limit (hash k) with hb0
    let T1 : LSet K := { T with nkey := T.nkey + 1, bucket := fun b => if b = b0 then k :: T.bucket b0 else T.bucket b }
    have hl : ∀ v, T1.limit v = T.limit v := fun v => rfl
    have ok1 : LOk hash T1 := by
      refine ⟨h.ok.pow, h.ok.plt, ?_, h.ok.seg, h.ok.cap, h.ok.segtight⟩
      intro b x hx
      change x ∈ (if b = b0 then k :: T.bucket b0 else T.bucket b) at hx
      rw [hl]
      by_cases hb : b = b0
      · rw [if_pos hb] at hx
        rcases List.mem_cons.1 hx with hx | hx
        · rw [hx, hb]
        · rw [hb]; exact h.ok.placed _ _ hx
      · rw [if_neg hb] at hx; exact h.ok.placed _ _ hx
    have el1 : T1.elems.Perm (k :: T.elems) := by
      obtain ⟨R, a1, a2⟩ := flatMap_change (f := T.bucket) (g := T1.bucket) b0 (by
        intro b hb; show (if b = b0 then k :: T.bucket b0 else T.bucket b) = _; rw [if_neg hb]) (T.nseg * 256) (by omega)
      have e1 : T1.bucket b0 = k :: T.bucket b0 := if_pos rfl
      rw [e1] at a2
      exact a2.trans ((List.Perm.cons k a1.symm))
    have nd : NoDup eq (k :: S) := by
      refine List.Pairwise.cons ?_ h.nodup
      intro x hx
      have := hnew x (h.elems.mem_iff.2 hx)
      cases hkx : eq k x with
      | false => rfl
      | true => rw [he.symm hkx] at this; cases this
    have hstep : SpecStep eq (.insert k) S (k :: S) (some k) :=
      .insertNew fun x hx => hnew x (h.elems.mem_iff.2 hx)
    have rep1 : Rep hash eq T1 (k :: S) := ⟨ok1, el1.trans (h.elems.cons k), by show T.nkey + 1 = _; rw [h.count]; rfl, nd⟩
    refine ⟨_, k, k :: S, rfl, hstep, ?_⟩
    split
    · obtain ⟨g1, g2, g3⟩ := expand_ok ok1
      exact ⟨g1, g2.trans rep1.elems, by rw [g3]; exact rep1.count, nd⟩
    · exact rep1

theorem removeChain_spec (k : K) (l : List K) :
    match lsetRemoveChain eq k l with
    | none => ∀ x ∈ l, eq x k = false
    | some (x, l') => x ∈ l ∧ eq x k = true ∧ l.Perm (x :: l') ∧ ∀ y ∈ l', y ∈ l := by
  induction l with
  | nil => intro x hx; cases hx
  | cons y ys ih =>
    rw [lsetRemoveChain]
    cases hy : eq y k with
    | true => simp only [if_true]; exact ⟨List.mem_cons_self .., hy, List.Perm.refl _, fun z hz => List.mem_cons_of_mem _ hz⟩
    | false =>
      simp only [Bool.false_eq_true, if_false]
      cases e : lsetRemoveChain eq k ys with
      | none =>
        rw [e] at ih
        simp only [Option.map_none]
        intro x hx
        rcases List.mem_cons.1 hx with h | h
        · rw [h]; exact hy
        · exact ih x h
      | some r =>
        rw [e] at ih
        obtain ⟨a, b, c, d⟩ := ih
        simp only [Option.map_some]
        refine ⟨List.mem_cons_of_mem _ a, b, (c.cons y).trans (List.Perm.swap _ _ _), ?_⟩
        intro z hz
        rcases List.mem_cons.1 hz with h | h
        · rw [h]; exact List.mem_cons_self ..
        · exact List.mem_cons_of_mem _ (d z h)

/-- C37: `pset_remove` removes exactly the element equal to the key; it is
defined exactly when there is one. -/
theorem lset_remove (he : HashEq hash eq) {T : LSet K} {S : List K} (h : Rep hash eq T S) (k : K) :
    match T.remove hash eq k with
    | none => ∀ x ∈ S, eq x k = false
    | some (T', x) => ∃ S', SpecStep eq (.remove k) S S' (some x) ∧ Rep hash eq T' S' := by
  have hlt := h.ok.limit_lt (hash k)
  have hseg := h.ok.seg
  have hr := removeChain_spec (eq := eq) k (T.bucket (T.limit (hash k)))
  unfold LSet.remove
  simp only
  rw [if_neg (h.ok.segment _)]
  cases e : lsetRemoveChain eq k (T.bucket (T.limit (hash k))) with
  | none =>
    rw [e] at hr
    simp only [Option.map_none]
    intro x hx
    cases hxk : eq x k with
    | false => rfl
    | true =>
      have := (mem_elems h.ok).1 (h.elems.mem_iff.2 hx)
      rw [he.hash hxk] at this
      rw [hr x this] at hxk; cases hxk
  | some r =>
    rw [e] at hr
    obtain ⟨a, b, c, d⟩ := hr
    simp only [Option.map_some]
    set b0 := T.limit (hash k) with hb0
    let T1 : LSet K := { T with nkey := T.nkey - 1, bucket := fun x => if x = b0 then r.2 else T.bucket x }
    have hl : ∀ v, T1.limit v = T.limit v := fun v => rfl
    obtain ⟨R, a1, a2⟩ := flatMap_change (f := T.bucket) (g := T1.bucket) b0 (by
      intro b hb; show (if b = b0 then r.2 else T.bucket b) = _; rw [if_neg hb]) (T.nseg * 256) (by omega)
    have e1 : T1.bucket b0 = r.2 := if_pos rfl
    rw [e1] at a2
    have hperm : S.Perm (r.1 :: T1.elems) :=
      h.elems.symm.trans (a1.trans ((c.append_right R).trans (a2.symm.cons r.1)))
    have hmem : r.1 ∈ S := hperm.mem_iff.2 (List.mem_cons_self ..)
    refine ⟨T1.elems, .remove hmem b hperm, ?_, List.Perm.refl _, ?_, ?_⟩
    · refine ⟨h.ok.pow, h.ok.plt, ?_, h.ok.seg, h.ok.cap, h.ok.segtight⟩
      intro x y hy
      change y ∈ (if x = b0 then r.2 else T.bucket x) at hy
      rw [hl]
      by_cases hb : x = b0
      · rw [if_pos hb] at hy; rw [hb]; exact h.ok.placed _ _ (d y hy)
      · rw [if_neg hb] at hy; exact h.ok.placed _ _ hy
    · show T.nkey - 1 = _
      rw [h.count, hperm.length_eq, List.length_cons]; rfl
    · have hs : ∀ {x y : K}, eq x y = false → eq y x = false := by
        intro x y hxy
        cases hyx : eq y x with
        | false => rfl
        | true => rw [he.symm hyx] at hxy; cases hxy
      exact ((hperm.pairwise_iff hs).1 h.nodup).tail

/-! ## every sequence of operations -/

/-- run a sequence of operations, collecting the answers -/
def runLSet (hash : K → Nat) (eq : K → K → Bool) : List (SetOp K) → LSet K → Option (LSet K × List (Option K))
  | [], T => some (T, [])
  | .insert k :: ops, T => do let (T, x) ← T.insert hash eq k; let (T, rs) ← runLSet hash eq ops T; pure (T, some x :: rs)
  | .find k :: ops, T => do let x ← T.find hash eq k; let (T, rs) ← runLSet hash eq ops T; pure (T, x :: rs)
  | .remove k :: ops, T => do let (T, x) ← T.remove hash eq k; let (T, rs) ← runLSet hash eq ops T; pure (T, some x :: rs)

/-- sequences of specification steps -/
inductive SpecRun (eq : K → K → Bool) : List (SetOp K) → List K → List K → List (Option K) → Prop
  | nil {S} : SpecRun eq [] S S []
  | cons {op ops S S' S'' r rs} : SpecStep eq op S S' r → SpecRun eq ops S' S'' rs → SpecRun eq (op :: ops) S S'' (r :: rs)

/-- C37: after any sequence of operations on a new set (of any size hint) the
answers are those of a finite set and the table represents the resulting finite
set; the run is only undefined if an absent key is removed. -/
theorem lset_refines (he : HashEq hash eq) (ops : List (SetOp K)) : ∀ {T : LSet K} {S : List K}, Rep hash eq T S →
    match runLSet hash eq ops T with
    | some (T', rs) => ∃ S', SpecRun eq ops S S' rs ∧ Rep hash eq T' S'
    | none => ∃ pre k post S1 rs, ops = pre ++ SetOp.remove k :: post ∧ SpecRun eq pre S S1 rs ∧ ∀ x ∈ S1, eq x k = false := by
  induction ops with
  | nil => intro T S h; exact ⟨S, .nil, h⟩
  | cons op ops ih =>
    intro T S h
    -- combine one successful step with the rest
    have comb : ∀ {T1 : LSet K} {S1 : List K} {r : Option K}, SpecStep eq op S S1 r → Rep hash eq T1 S1 →
        (match (do let (T, rs) ← runLSet hash eq ops T1; pure (T, r :: rs) : Option (LSet K × List (Option K))) with
        | some (T', rs) => ∃ S', SpecRun eq (op :: ops) S S' rs ∧ Rep hash eq T' S'
        | none => ∃ pre k post S2 rs, op :: ops = pre ++ SetOp.remove k :: post ∧ SpecRun eq pre S S2 rs ∧ ∀ x ∈ S2, eq x k = false) := by
      intro T1 S1 r hs hr
      have := ih hr
      cases e : runLSet hash eq ops T1 with
      | none =>
        rw [e] at this
        obtain ⟨pre, k, post, S2, rs, h1, h2, h3⟩ := this
        exact ⟨op :: pre, k, post, S2, r :: rs, by rw [h1]; rfl, .cons hs h2, h3⟩
      | some p =>
        rw [e] at this
        obtain ⟨S', h1, h2⟩ := this
        exact ⟨S', .cons hs h1, h2⟩
    cases op with
    | insert k =>
      obtain ⟨T', x, S', e, hs, hr⟩ := lset_insert he h k
      rw [runLSet, e]
      exact comb hs hr
    | find k =>
      obtain ⟨r, e, hs⟩ := lset_find he h k
      rw [runLSet, e]
      exact comb hs h
    | remove k =>
      have hrm := lset_remove he h k
      rw [runLSet]
      cases e : T.remove hash eq k with
      | none =>
        rw [e] at hrm
        exact ⟨[], k, ops, S, [], rfl, .nil, hrm⟩
      | some p =>
        rw [e] at hrm
        obtain ⟨S', hs, hr⟩ := hrm
        exact comb hs hr

/-- the table started by `new_set` behaves as a finite set -/
theorem lset_new_refines (he : HashEq hash eq) (nslots : Nat) (ops : List (SetOp K)) :
    match runLSet hash eq ops (LSet.new nslots) with
    | some (T', rs) => ∃ S', SpecRun eq ops [] S' rs ∧ Rep hash eq T' S'
    | none => ∃ pre k post S1 rs, ops = pre ++ SetOp.remove k :: post ∧ SpecRun eq pre [] S1 rs ∧ ∀ x ∈ S1, eq x k = false :=
  lset_refines he ops (new_rep hash eq nslots)

/-- C37: iteration visits each element exactly once, and `set_count` is their number. -/
theorem lset_iterate {T : LSet K} {S : List K} (h : Rep hash eq T S) : T.elems.Perm S ∧ T.nkey = T.elems.length :=
  ⟨h.elems, by rw [h.count, h.elems.length_eq]⟩

/-- C37: every directory index used is within the directory of 256 segments. -/
theorem lset_directory {T : LSet K} {S : List K} (h : Rep hash eq T S) : T.nseg ≤ 256 := by
  have h1 := h.ok.segtight
  have h2 := h.ok.cap
  obtain ⟨k, hk⟩ := h.ok.pow
  omega

/-- the specification determines the answers: an element equal to the key is unique -/
theorem spec_find_unique (he : HashEq hash eq) {S : List K} (hS : NoDup eq S) {k x y : K} (hx : x ∈ S) (hy : y ∈ S)
    (h1 : eq x k = true) (h2 : eq y k = true) : x = y := by
  have hxy := he.trans h1 (he.symm h2)
  by_contra hne
  have : ∀ {l : List K}, l.Pairwise (fun x y => eq x y = false) → x ∈ l → y ∈ l → False := by
    intro l hl
    induction hl with
    | nil => intro h; cases h
    | cons ha _ ih =>
      intro hx hy
      rcases List.mem_cons.1 hx with rfl | hx' <;> rcases List.mem_cons.1 hy with rfl | hy'
      · exact hne rfl
      · rw [ha _ hy'] at hxy; cases hxy
      · have := ha _ hx'; rw [he.symm hxy] at this; cases this
      · exact ih hx' hy'
  exact this hS hx hy

/-- non-vacuity: numbers modulo 10 as keys, all in one hash bucket -/
example : HashEq (fun _ : Nat => 7) (fun x y => x % 10 == y % 10) :=
  ⟨by simp, by intro x y; simp; omega, by intro x y z; simp; omega, by simp⟩
example : (runLSet (fun _ : Nat => 7) (fun x y => x % 10 == y % 10)
    [.insert 3, .insert 13, .insert 4, .remove 23, .find 3, .find 14] (LSet.new 100)).map (·.2) =
    some [some 3, some 3, some 4, some 3, none, some 4] := by decide

end Verif.Props
