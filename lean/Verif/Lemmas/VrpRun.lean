import Verif.Lemmas.Vrp
import Verif.Lemmas.ConstBitsIter
/-!
# The value range analysis: what holds throughout the analysis
-/
namespace Verif.Model.Vrp
open Verif.Spec Verif.Model.IrOpt

variable {m k : IMode} {G : SsaGraph} {w : Nat}

theorem reaches_enters {b : Nat} {ρ : PEnv} (h : G.Reaches b ρ) :
    ∃ ρ0 i opq, G.Enters ρ0 b i ∧ ∀ m n v, ρ m n = some v → G.Computes ρ0 opq b i m n v := by
  cases h with
  | start h => exact ⟨_, _, _, .start, h⟩
  | step h1 h2 h3 h4 h5 => exact ⟨_, _, _, .step h1 h2 h3 h4, h5⟩

theorem reaches_occurs {b : Nat} {ρ : PEnv} (h : G.Reaches b ρ) {n : Nat} {v : BitVec m.bits} (hv : ρ m n = some v) : G.Occurs m n v := by
  obtain ⟨ρ0, i, opq, h1, h2⟩ := reaches_enters h
  exact ⟨ρ0, b, i, opq, h1, h2 _ _ _ hv⟩

theorem enters_occurs {ρ : PEnv} {b : Nat} {i : Option Nat} (h : G.Enters ρ b i) {n : Nat} {v : BitVec m.bits} (hv : ρ m n = some v) :
    G.Occurs m n v := by
  cases h with
  | start => cases hv
  | step h1 h2 h3 h4 => exact reaches_occurs h1 hv

/-- a property of the values of all nodes, shown from the values of the operands -/
theorem occurs_ind (P : (m : IMode) → Nat → BitVec m.bits → Prop)
    (hin : ∀ m n v, G.node m n = .input → P m n v)
    (hphi : ∀ m n args a v, G.node m n = .phi args → a ∈ args → G.Occurs m a v → P m n v)
    (hop : ∀ m n e env, G.node m n = .op e → (∀ k j, e.Uses k j → G.Occurs k j (env k j)) → e.Ok env → P m n (e.eval env))
    {n : Nat} {v : BitVec m.bits} (h : G.Occurs m n v) : P m n v := by
  have one : ∀ {ρ : PEnv} {b : Nat} {i : Option Nat} {opq : Env} {m : IMode} {n : Nat} {v : BitVec m.bits}, G.Enters ρ b i →
      (∀ m n v, ρ m n = some v → P m n v) → G.Computes ρ opq b i m n v → P m n v := by
    intro ρ b i opq m n v he hk hc
    cases hc with
    | keep _ h => exact hk _ _ _ h
    | input _ h => exact hin _ _ _ h
    | phi _ h _ ha hv => exact hphi _ _ _ _ _ h (List.mem_of_getElem? ha) (enters_occurs he hv)
    | op _ h hu hok => exact hop _ _ _ _ h (fun k j hj => ⟨_, _, _, _, he, hu k j hj⟩) hok
  have reach : ∀ {b : Nat} {ρ : PEnv}, G.Reaches b ρ → ∀ m n v, ρ m n = some v → P m n v := by
    intro b ρ hr
    induction hr with
    | start h => exact fun m n v hv => one .start (fun _ _ _ h => by cases h) (h m n v hv)
    | step h1 h2 h3 h4 h5 ih => exact fun m n v hv => one (.step h1 h2 h3 h4) ih (h5 m n v hv)
  obtain ⟨ρ, b, i, opq, he, hc⟩ := h
  refine one he ?_ hc
  cases he with
  | start => intro _ _ _ h; cases h
  | step h1 _ _ _ => exact reach h1

theorem occurs_const {n : Nat} {v c : BitVec m.bits} (h : G.Occurs m n v) (hn : G.node m n = .op (.const c)) : v = c := by
  refine occurs_ind (fun m n v => ∀ c, G.node m n = .op (.const c) → v = c) ?_ ?_ ?_ h c hn
  · intro m n v h c hc; rw [h] at hc; cases hc
  · intro m n args a v h _ _ c hc; rw [h] at hc; cases hc
  · intro m n e env h _ _ c hc; rw [h] at hc; cases hc; rfl

/-- the entries say nothing wrong -/
def AllDesc (G : SsaGraph) (s : State) : Prop :=
  ∀ m n v, G.Occurs m n v → (s m n).bi.Desc v ∧ (s m n).range.Desc m v

theorem transfer_desc {s : State} (hs : AllDesc G s) {n : Nat} {new : New m.bits} (ht : transfer G s m n = some new) {v : BitVec m.bits}
    (hv : G.Occurs m n v) : (∀ b n, new.bits = some (b, n) → (BitInfo.mk n b).Desc v) ∧ new.range.Desc m v := by
  refine occurs_ind (fun m n v => ∀ new, transfer G s m n = some new →
    (∀ b n, new.bits = some (b, n) → (BitInfo.mk n b).Desc v) ∧ new.range.Desc m v) ?_ ?_ ?_ hv new ht
  · intro m n v h new ht
    simp only [transfer, h] at ht
    split at ht <;> cases ht <;> exact ⟨fun _ _ h => (by cases h), trivial⟩
  · intro m n args a v h ha hv new ht
    simp only [transfer, h] at ht
    split at ht
    · cases ht; exact ⟨fun _ _ h => (by cases h), trivial⟩
    · exact ⟨fun b n hb => transferPhi_desc ht hb ha (hs _ _ _ hv).1, transferPhi_range ht ha (hs _ _ _ hv).2⟩
  · intro m n e env h hu hok new ht
    have hc : ConstsRight G env e := fun k i c hk hi => occurs_const (hu k i hk) hi
    simp only [transfer, h] at ht
    split at ht
    · cases ht; exact ⟨fun _ _ h => (by cases h), trivial⟩
    · exact ⟨fun b n hb => transferOp_desc ht hb (fun k i hk => (hs _ _ _ (hu k i hk)).1) hc hok,
        transferOp_range ht (fun k i hk => (hs _ _ _ (hu k i hk)).2) hc hok⟩

theorem merge_bits_desc {sg : Bool} {a : Attr w} {new : New w} {v : BitVec w} (h : a.bi.Desc v)
    (h' : ∀ b n, new.bits = some (b, n) → (BitInfo.mk n b).Desc v) : (merge sg a new).bi.Desc v := by
  unfold merge
  split
  · exact h
  · next b n hb =>
    intro i hi
    have h1 := h i hi
    have h2 := h' b n hb i hi
    simp only [BitVec.getLsbD_and, BitVec.getLsbD_or, Bool.and_eq_true, Bool.or_eq_true] at *
    exact ⟨fun hv => ⟨h2.1 hv, h1.1 hv⟩, fun hv => hv.elim h2.2 h1.2⟩

theorem mergeRange_undefined (sg : Bool) (r : Range w) : mergeRange sg r .undefined = r := by
  cases r <;> rfl

theorem AllDesc.update {s s' : State} {n : Nat} (hs : AllDesc G s) (K : Kinds G s) (h : updateNode G s m n = some s') : AllDesc G s' := by
  obtain ⟨new, ht, rfl⟩ := updateNode_inv h
  intro m' n' v hv
  by_cases hp : m = m' ∧ n' = n
  · obtain ⟨rfl, rfl⟩ := hp
    rw [put_same]
    obtain ⟨h1, h2⟩ := hs _ _ _ hv
    obtain ⟨h3, h4⟩ := transfer_desc hs ht hv
    refine ⟨merge_bits_desc h1 h3, ?_⟩
    rw [merge_range]
    cases hm : isInt m with
    | true => exact mergeRange_desc (K.compat hm ht) h2 h4
    | false =>
      rw [transfer_not_int hm ht, New.nothing, mergeRange_undefined]
      exact h2
  · rw [put_other _ _ _ _ hp]
    exact hs _ _ _ hv

/-! ## No assertion fails -/

/-- the shift counts that are constants are not negative -/
def CountsNonneg (G : SsaGraph) : {m : IMode} → Expr m → Prop
  | _, .shl (k := k) _ c => ∀ i v, c = .leaf k i → G.node k i = .op (.const v) → 0 ≤ k.num v
  | _, .shr (k := k) _ c => ∀ i v, c = .leaf k i → G.node k i = .op (.const v) → 0 ≤ k.num v
  | _, .shrs (k := k) _ c => ∀ i v, c = .leaf k i → G.node k i = .op (.const v) → 0 ≤ k.num v
  | _, _ => True

/-- operations have valid modes, constant shift counts are not negative, and Phis have operands -/
structure GraphOk (G : SsaGraph) : Prop where
  wf : ∀ m n e, G.node m n = .op e → e.WellFormed
  count : ∀ m n e, G.node m n = .op e → CountsNonneg G e
  phi : ∀ m n, G.node m n ≠ .phi []

theorem shiftBits_some {f : Nat → BitVec w → BitVec w} {a : Attr w} {c : Option (BitVec k.bits)} (h : ∀ v, c = some v → 0 ≤ k.num v) :
    ∃ new, shiftBits f a c = some new := by
  cases c with
  | none => exact ⟨_, rfl⟩
  | some v =>
    have := h v rfl
    exact ⟨_, by rw [shiftBits, if_neg (by omega)]⟩

theorem transfer_some (hG : GraphOk G) (s : State) (m : IMode) (n : Nat) : ∃ new, transfer G s m n = some new := by
  unfold transfer
  split
  · exact ⟨_, rfl⟩
  · split
    · next e he =>
      have hc := hG.count _ _ _ he
      have key : ∀ {k : IMode} (c : Expr k), (∀ i v, c = .leaf k i → G.node k i = .op (.const v) → 0 ≤ k.num v) →
          ∀ v, constOf G c = some v → 0 ≤ k.num v := by
        intro k c h v hv
        obtain ⟨i, hi, hn⟩ := constOf_eq hv
        exact h i v hi hn
      cases e with
      | conv m x => simp only [transferOp]; split <;> exact ⟨_, rfl⟩
      | shl x c => simp only [transferOp]; exact shiftBits_some (key c hc)
      | shr x c => simp only [transferOp]; exact shiftBits_some (key c hc)
      | shrs x c => simp only [transferOp]; exact shiftBits_some (key c hc)
      | _ => simp only [transferOp]; exact ⟨_, rfl⟩
    · next args he =>
      cases args with
      | nil => exact (hG.phi _ _ he).elim
      | cons i is => exact ⟨_, rfl⟩
    · exact ⟨_, rfl⟩

/-- what follows about the bits if all entries say more -/
theorem transfer_le (hG : GraphOk G) {s s' : State} {n : Nat} {new new' : New m.bits} (h : transfer G s m n = some new)
    (h' : transfer G s' m n = some new') (hs : ∀ k i, (s' k i).bi.Le (s k i).bi) (hcons : ∀ k i, (s' k i).bi.Cons) :
    (new.bits = none ∧ new'.bits = none) ∨ ∃ b n b' n', new.bits = some (b, n) ∧ new'.bits = some (b', n') ∧
        (BitInfo.mk n' b').Le ⟨n, b⟩ ∧ (BitInfo.mk n' b').Cons := by
  unfold transfer at h h'
  split at h
  · next hm =>
    rw [if_pos hm] at h'
    cases h; cases h'; exact Or.inl ⟨rfl, rfl⟩
  · next hm =>
    rw [if_neg hm] at h'
    split at h
    · next e he =>
      rw [he] at h'
      obtain ⟨new2, h2, h3⟩ := transferOp_le (hG.wf _ _ _ he) h hs hcons
      simp only at h'
      rw [h2] at h'
      cases h'
      exact h3
    · next args he =>
      rw [he] at h'
      obtain ⟨new2, h2, h3⟩ := transferPhi_le h (fun i => hs _ i) (fun i => hcons _ i)
      simp only at h'
      rw [h2] at h'
      cases h'
      exact Or.inr h3
    · next he =>
      rw [he] at h'
      cases h; cases h'; exact Or.inl ⟨rfl, rfl⟩

/-- what the analysis keeps true about the bits: nothing is contradictory, and what an update finds out is at least what is known -/
structure BitsInv (G : SsaGraph) (s : State) : Prop where
  cons : ∀ m n, (s m n).bi.Cons
  le : ∀ m n new b u, transfer G s m n = some new → new.bits = some (b, u) → (BitInfo.mk u b).Le (s m n).bi

theorem merge_bi {sg : Bool} {a : Attr w} {new : New w} {b u : BitVec w} (hb : new.bits = some (b, u)) (h : (BitInfo.mk u b).Le a.bi) :
    (merge sg a new).bi = ⟨u, b⟩ := by
  unfold merge
  rw [hb]
  simp only [Attr.bi]
  congr 1
  · apply getLsbD_ext; intro i hi
    have := (h i hi).1
    simp only [BitVec.getLsbD_and]
    cases h1 : u.getLsbD i <;> simp_all
  · apply getLsbD_ext; intro i hi
    have := (h i hi).2
    simp only [BitVec.getLsbD_or]
    cases h1 : b.getLsbD i <;> simp_all

theorem merge_bi_none {sg : Bool} {a : Attr w} {new : New w} (hb : new.bits = none) : (merge sg a new).bi = a.bi := by
  unfold merge; rw [hb]

theorem merge_le {sg : Bool} (a : Attr w) (new : New w) : (merge sg a new).bi.Le a.bi := by
  unfold merge
  split
  · exact le_refl _
  · intro i hi
    simp only [BitVec.getLsbD_and, BitVec.getLsbD_or, Bool.and_eq_true, Bool.or_eq_true]
    exact ⟨And.right, Or.inr⟩

theorem put_le (s : State) (m : IMode) (n : Nat) (new : New m.bits) (k : IMode) (i : Nat) :
    (s.put m n (merge m.signed (s m n) new) k i).bi.Le (s k i).bi := by
  by_cases hp : m = k ∧ i = n
  · obtain ⟨rfl, rfl⟩ := hp
    rw [put_same]
    exact merge_le _ _
  · rw [put_other _ _ _ _ hp]
    exact le_refl _

theorem BitsInv.merge_cons {s : State} {n : Nat} {new : New m.bits} (hG : GraphOk G) (I : BitsInv G s) (ht : transfer G s m n = some new) :
    (merge m.signed (s m n) new).bi.Cons := by
  cases hb : new.bits with
  | none => rw [merge_bi_none hb]; exact I.cons _ _
  | some p =>
    obtain ⟨b, u⟩ := p
    rw [merge_bi hb (I.le _ _ _ _ _ ht hb)]
    rcases transfer_le hG ht ht (fun k i => le_refl _) I.cons with h | ⟨b1, n1, b2, n2, h1, h2, h3, h4⟩
    · rw [h.1] at hb; cases hb
    · rw [hb] at h2; cases h2; exact h4

theorem BitsInv.update {s : State} (hG : GraphOk G) (I : BitsInv G s) (m : IMode) (n : Nat) :
    ∃ s', updateNode G s m n = some s' ∧ BitsInv G s' := by
  obtain ⟨new, ht⟩ := transfer_some hG s m n
  have hcons := I.merge_cons hG ht
  refine ⟨s.put m n (merge m.signed (s m n) new), ?_, ?_⟩
  · unfold updateNode
    rw [ht]
    simp only
    rw [if_pos]
    apply getLsbD_ext
    intro i hi
    have := hcons i hi
    simp only [BitVec.getLsbD_and, BitVec.getLsbD_not, hi, decide_true, Bool.true_and, BitVec.getLsbD_zero] at *
    cases h : (merge m.signed (s m n) new).set.getLsbD i <;> simp_all
  · have hc : ∀ k i, (s.put m n (merge m.signed (s m n) new) k i).bi.Cons := by
      intro k i
      by_cases hp : m = k ∧ i = n
      · obtain ⟨rfl, rfl⟩ := hp
        rw [put_same]
        exact hcons
      · rw [put_other _ _ _ _ hp]
        exact I.cons _ _
    refine ⟨hc, fun k i new' b u ht' hb => ?_⟩
    obtain ⟨old, hold⟩ := transfer_some hG s k i
    rcases transfer_le hG hold ht' (put_le s m n new) hc with h | ⟨b1, n1, b2, n2, h1, h2, h3, h4⟩
    · rw [h.2] at hb; cases hb
    · rw [hb] at h2
      cases h2
      by_cases hp : m = k ∧ i = n
      · obtain ⟨rfl, rfl⟩ := hp
        rw [put_same]
        rw [ht] at hold
        cases hold
        rw [merge_bi h1 (I.le _ _ _ _ _ ht h1)]
        exact h3
      · rw [put_other _ _ _ _ hp]
        exact le_trans h3 (I.le _ _ _ _ _ hold h1)

/-! ## The number of changes -/

/-- how much a range can still change -/
def rangeRank (m : IMode) : Range m.bits → Nat
  | .undefined => 4 * 2 ^ m.bits + 1
  | .range b t => (m.num t + 2 ^ m.bits).toNat + (2 ^ m.bits - m.num b).toNat
  | .anti _ _ => 0
  | .varying => 0

theorem num_bounds (m : IMode) (v : BitVec m.bits) : -(2 ^ m.bits : Int) ≤ m.num v ∧ m.num v < (2 ^ m.bits : Int) := by
  unfold IMode.num
  have hc : ((2 ^ m.bits : Nat) : Int) = (2 : Int) ^ m.bits := by push_cast; rfl
  have h0 := v.isLt
  split
  · rw [BitVec.toInt_eq_toNat_cond]
    split <;> omega
  · omega

theorem rangeRank_le (m : IMode) (r : Range m.bits) (h : r ≠ .undefined) : rangeRank m r ≤ 4 * 2 ^ m.bits := by
  have hc : ((2 ^ m.bits : Nat) : Int) = (2 : Int) ^ m.bits := by push_cast; rfl
  cases r with
  | undefined => exact (h rfl).elim
  | range b t =>
    have h1 := num_bounds m b
    have h2 := num_bounds m t
    simp only [rangeRank]
    omega
  | anti b t => exact Nat.zero_le _
  | varying => exact Nat.zero_le _

theorem mergeRange_rank {r r' : Range m.bits} (hc : Compat r r') :
    mergeRange m.signed r r' = r ∨ rangeRank m (mergeRange m.signed r r') < rangeRank m r := by
  cases r with
  | undefined =>
    by_cases h : r' = .undefined
    · rw [h]; exact Or.inl rfl
    · right
      have := rangeRank_le m r' h
      show rangeRank m r' < 4 * 2 ^ m.bits + 1
      omega
  | range b t =>
    cases r' with
    | range b' t' =>
      have hc : ((2 ^ m.bits : Nat) : Int) = (2 : Int) ^ m.bits := by push_cast; rfl
      have h1 := num_bounds m b
      have h2 := num_bounds m t
      have h3 := num_bounds m b'
      have h4 := num_bounds m t'
      simp only [mergeRange]
      by_cases hb : BitInfo.tvCmp m.signed b b' = Rel.less
      · right
        rw [if_pos hb]
        rw [cmp_less] at hb
        split
        · next ht => rw [cmp_greater] at ht; simp only [rangeRank]; omega
        · simp only [rangeRank]; omega
      · rw [if_neg hb]
        split
        · next ht => right; rw [cmp_greater] at ht; simp only [rangeRank]; omega
        · exact Or.inl rfl
    | anti b' t' => exact hc.elim
    | undefined => exact Or.inl rfl
    | varying => exact Or.inl rfl
  | anti b t =>
    unfold Compat at hc
    subst hc
    exact Or.inl (mergeRange_anti b t)
  | varying => exact Or.inl rfl

/-- how much an entry can still change -/
def attrRank (m : IMode) (a : Attr m.bits) : Nat := ConstBits.rank a.bi + rangeRank m a.range

theorem merge_rank {a : Attr m.bits} {new : New m.bits} (hc : Compat a.range new.range) :
    merge m.signed a new = a ∨ attrRank m (merge m.signed a new) < attrRank m a := by
  have h1 := merge_le (sg := m.signed) a new
  have h2 := ConstBits.rank_mono h1
  have h3 := merge_range m.signed a new
  unfold attrRank
  rcases mergeRange_rank hc with h | h
  · by_cases hb : (merge m.signed a new).bi = a.bi
    · left
      rw [h] at h3
      cases hm : merge m.signed a new with
      | mk s n r =>
        rw [hm] at hb h3
        cases a
        simp only [Attr.bi, BitInfo.mk.injEq] at hb
        simp only at h3
        rw [hb.1, hb.2, h3]
    · right
      have := ConstBits.rank_lt h1 (fun e => hb e.symm)
      rw [h3, h]
      omega
  · right
    rw [h3]
    omega

theorem put_eq (s : State) (m : IMode) (n : Nat) : s.put m n (s m n) = s := by
  funext m' n'
  by_cases hp : m = m' ∧ n' = n
  · obtain ⟨rfl, rfl⟩ := hp; rw [put_same]
  · rw [put_other _ _ _ _ hp]

theorem updateNode_other {s s' : State} {n : Nat} (h : updateNode G s m n = some s') {m' : IMode} {n' : Nat} (hp : ¬ (m = m' ∧ n' = n)) :
    s' m' n' = s m' n' := by
  obtain ⟨new, _, rfl⟩ := updateNode_inv h
  exact put_other _ _ _ _ hp

theorem updateNode_same {s s' : State} {n : Nat} (h : updateNode G s m n = some s') (he : s' m n = s m n) : s' = s := by
  obtain ⟨new, _, rfl⟩ := updateNode_inv h
  rw [put_same] at he
  rw [he, put_eq]

theorem compat {s : State} {n : Nat} {new : New m.bits} (K : Kinds G s) (hi : isInt m = false → (s m n).range = .undefined)
    (ht : transfer G s m n = some new) : Compat (s m n).range new.range := by
  cases hm : isInt m with
  | true => exact K.compat hm ht
  | false => rw [hi hm]; trivial

/-- nodes without an integer mode have no range -/
def NotInt (s : State) : Prop := ∀ m n, isInt m = false → (s m n).range = .undefined

theorem NotInt.update {s s' : State} {n : Nat} (hn : NotInt s) (h : updateNode G s m n = some s') : NotInt s' := by
  obtain ⟨new, ht, rfl⟩ := updateNode_inv h
  intro m' n' hm
  by_cases hp : m = m' ∧ n' = n
  · obtain ⟨rfl, rfl⟩ := hp
    rw [put_same, merge_range, transfer_not_int hm ht, New.nothing, mergeRange_undefined]
    exact hn _ _ hm
  · rw [put_other _ _ _ _ hp]
    exact hn _ _ hm

/-- everything the analysis keeps true, whatever the order of the updates -/
structure Inv (G : SsaGraph) (s : State) : Prop where
  kinds : Kinds G s
  desc : AllDesc G s
  notInt : NotInt s

theorem Inv.initial (G : SsaGraph) : Inv G (fun m _ => Attr.initial m.bits) where
  kinds := ⟨fun _ _ _ _ _ => Or.inl rfl, fun _ _ _ _ _ _ h => (by cases h), fun _ _ _ _ _ _ _ => Or.inl rfl⟩
  desc _ _ v _ := ⟨initial_desc v, trivial⟩
  notInt _ _ _ := rfl

theorem Inv.update {s s' : State} {n : Nat} (I : Inv G s) (h : updateNode G s m n = some s') : Inv G s' :=
  ⟨I.kinds.update h, I.desc.update I.kinds h, I.notInt.update h⟩

theorem BitsInv.initial (G : SsaGraph) : BitsInv G (fun m _ => Attr.initial m.bits) :=
  ⟨fun _ _ => cons_unknown, fun _ _ _ _ _ _ _ => le_unknown _⟩

theorem firstPass_inv {outs : Key → List Key} {P : State → Prop} (hP : ∀ s s' m n, P s → updateNode G s m n = some s' → P s') :
    ∀ {ns : List Key} {s s' : State} {vis q q' : List Key}, P s → firstPass G outs ns s vis q = some (s', q') → P s'
  | [], _, _, _, _, _, h, he => by cases he; exact h
  | n :: ns, s, s', vis, q, q', h, he => by
    simp only [firstPass] at he
    split at he
    · cases he
    · next s1 h1 => exact firstPass_inv hP (hP _ _ _ _ h h1) he

theorem workLoop_inv {outs : Key → List Key} {P : State → Prop} (hP : ∀ s s' m n, P s → updateNode G s m n = some s' → P s') :
    ∀ {fuel : Nat} {s s' : State} {q : List Key}, P s → workLoop G outs fuel s q = some (some s') → P s'
  | 0, _, _, [], h, he => by simp only [workLoop] at he; cases he; exact h
  | fuel + 1, _, _, [], h, he => by simp only [workLoop] at he; cases he; exact h
  | 0, _, _, n :: q, h, he => by simp only [workLoop] at he; cases he
  | fuel + 1, s, s', n :: q, h, he => by
    simp only [workLoop] at he
    split at he
    · cases he
    · next s1 h1 => exact workLoop_inv hP (hP _ _ _ _ h h1) he

theorem setVrpData_inv {outs : Key → List Key} {order : List Key} {fuel : Nat} {s : State} {P : State → Prop}
    (hP : ∀ s s' m n, P s → updateNode G s m n = some s' → P s') (h0 : P (fun m _ => Attr.initial m.bits))
    (h : setVrpData G outs order fuel = some (some s)) : P s := by
  unfold setVrpData at h
  split at h
  · cases h
  · next s1 q h1 => exact workLoop_inv hP (firstPass_inv hP h0 h1) h

/-! ## The end of the loop -/

/-- how much all entries can still change -/
def total (U : List Key) (s : State) : Nat := (U.map fun k => attrRank k.1 (s k.1 k.2)).sum

theorem sum_lt {α : Type} (f g : α → Nat) : ∀ (U : List α) (a : α), a ∈ U → f a < g a → (∀ b ∈ U, f b ≤ g b) → (U.map f).sum < (U.map g).sum
  | [], _, h, _, _ => by cases h
  | x :: U, a, h, hlt, hle => by
    simp only [List.map_cons, List.sum_cons]
    have h1 := hle x List.mem_cons_self
    have h2 : (U.map f).sum ≤ (U.map g).sum := by
      clear h hlt h1
      induction U with
      | nil => simp
      | cons y U ih =>
        simp only [List.map_cons, List.sum_cons]
        have := hle y (by simp)
        have := ih (fun b hb => hle b (by simp only [List.mem_cons] at hb ⊢; tauto))
        omega
    rcases List.mem_cons.1 h with rfl | h
    · omega
    · have := sum_lt f g U a h hlt (fun b hb => hle b (List.mem_cons_of_mem _ hb))
      omega

theorem update_total {s s' : State} {n : Nat} {U : List Key} (I : Inv G s) (h : updateNode G s m n = some s') (hn : (⟨m, n⟩ : Key) ∈ U)
    (hne : s' m n ≠ s m n) : total U s' < total U s := by
  obtain ⟨new, ht, rfl⟩ := updateNode_inv h
  rw [put_same] at hne
  have hr := (merge_rank (compat I.kinds (I.notInt m n) ht)).resolve_left hne
  refine sum_lt _ _ U ⟨m, n⟩ hn (by simp only [put_same]; exact hr) ?_
  rintro ⟨m', n'⟩ _
  by_cases hp : m = m' ∧ n' = n
  · obtain ⟨rfl, rfl⟩ := hp
    simp only [put_same]
    omega
  · simp only [put_other _ _ _ _ hp]
    exact Nat.le_refl _

theorem workLoop_ends {outs : Key → List Key} {U : List Key} (hG : GraphOk G) (hU : ∀ k ∈ U, ∀ j ∈ outs k, j ∈ U) :
    ∀ (t : Nat) (s : State) (q : List Key), total U s ≤ t → Inv G s → BitsInv G s → (∀ k ∈ q, k ∈ U) →
      ∃ N s', ∀ fuel, N ≤ fuel → workLoop G outs fuel s q = some (some s') := by
  intro t
  induction t with
  | zero =>
    intro s q
    induction q with
    | nil => intro _ _ _ _; exact ⟨0, s, fun fuel _ => by cases fuel <;> rfl⟩
    | cons n q ih =>
      intro h0 I B hq
      obtain ⟨s1, h1, B1⟩ := B.update hG n.1 n.2
      by_cases he : s1 n.1 n.2 = s n.1 n.2
      · have := updateNode_same h1 he
        subst this
        obtain ⟨N, s', hN⟩ := ih h0 I B (fun k hk => hq k (List.mem_cons_of_mem _ hk))
        refine ⟨N + 1, s', fun fuel hf => ?_⟩
        obtain ⟨f, rfl⟩ : ∃ f, fuel = f + 1 := ⟨fuel - 1, by omega⟩
        simp only [workLoop, h1, if_true]
        exact hN f (by omega)
      · have := update_total I h1 (hq n List.mem_cons_self) he
        omega
  | succ t iht =>
    intro s q
    induction q with
    | nil => intro _ _ _ _; exact ⟨0, s, fun fuel _ => by cases fuel <;> rfl⟩
    | cons n q ih =>
      intro h0 I B hq
      obtain ⟨s1, h1, B1⟩ := B.update hG n.1 n.2
      by_cases he : s1 n.1 n.2 = s n.1 n.2
      · have := updateNode_same h1 he
        subst this
        obtain ⟨N, s', hN⟩ := ih h0 I B (fun k hk => hq k (List.mem_cons_of_mem _ hk))
        refine ⟨N + 1, s', fun fuel hf => ?_⟩
        obtain ⟨f, rfl⟩ : ∃ f, fuel = f + 1 := ⟨fuel - 1, by omega⟩
        simp only [workLoop, h1, if_true]
        exact hN f (by omega)
      · have hlt := update_total I h1 (hq n List.mem_cons_self) he
        obtain ⟨N, s', hN⟩ := iht s1 (q ++ outs n) (by omega) (I.update h1) B1 (by
          intro k hk
          rcases List.mem_append.1 hk with hk | hk
          · exact hq k (List.mem_cons_of_mem _ hk)
          · exact hU n (hq n List.mem_cons_self) k hk)
        refine ⟨N + 1, s', fun fuel hf => ?_⟩
        obtain ⟨f, rfl⟩ : ∃ f, fuel = f + 1 := ⟨fuel - 1, by omega⟩
        simp only [workLoop, h1, he, if_false]
        exact hN f (by omega)

theorem firstPass_ends {outs : Key → List Key} {U : List Key} (hG : GraphOk G) (hU : ∀ k ∈ U, ∀ j ∈ outs k, j ∈ U) :
    ∀ (ns : List Key) (s : State) (vis q : List Key), BitsInv G s → (∀ k ∈ ns, k ∈ U) → (∀ k ∈ q, k ∈ U) →
      ∃ s' q', firstPass G outs ns s vis q = some (s', q') ∧ BitsInv G s' ∧ ∀ k ∈ q', k ∈ U
  | [], s, _, q, B, _, hq => ⟨s, q, rfl, B, hq⟩
  | n :: ns, s, vis, q, B, hn, hq => by
    obtain ⟨s1, h1, B1⟩ := B.update hG n.1 n.2
    obtain ⟨s', q', h2, h3⟩ := firstPass_ends hG hU ns s1 (n :: vis) (q ++ (outs n).filter (fun k => decide (k ∈ n :: vis))) B1
      (fun k hk => hn k (List.mem_cons_of_mem _ hk)) (by
        intro k hk
        rcases List.mem_append.1 hk with hk | hk
        · exact hq k hk
        · exact hU n (hn n List.mem_cons_self) k (List.mem_filter.1 hk).1)
    exact ⟨s', q', by simp only [firstPass, h1]; exact h2, h3⟩

theorem firstPass_ends' {outs : Key → List Key} (hG : GraphOk G) :
    ∀ (ns : List Key) (s : State) (vis q : List Key), BitsInv G s →
      ∃ s' q', firstPass G outs ns s vis q = some (s', q') ∧ BitsInv G s'
  | [], s, _, q, B => ⟨s, q, rfl, B⟩
  | n :: ns, s, vis, q, B => by
    obtain ⟨s1, h1, B1⟩ := B.update hG n.1 n.2
    simp only [firstPass, h1]
    exact firstPass_ends' hG ns s1 _ _ B1

/-! ## The result does not change any more -/

/-- the information about node `k` is calculated from that about node `p` -/
def Depends (G : SsaGraph) (k p : Key) : Prop :=
  match G.node k.1 k.2 with
  | .op e => e.Uses p.1 p.2
  | .phi args => p.1 = k.1 ∧ p.2 ∈ args
  | .input => False

/-- an update of the node does not change anything -/
def Stable (G : SsaGraph) (s : State) (k : Key) : Prop := updateNode G s k.1 k.2 = some s

theorem operand_congr {s s' : State} (a : Expr m) (h : ∀ k i, a.Uses k i → s k i = s' k i) : operand s a = operand s' a := by
  cases a
  case leaf i => exact h _ _ ⟨rfl, rfl⟩
  all_goals rfl

theorem transferOp_congr {s s' : State} (e : Expr m) (h : ∀ k i, e.Uses k i → s k i = s' k i) : transferOp G s e = transferOp G s' e := by
  cases e with
  | leaf m i => simp only [transferOp]; rw [h _ _ ⟨rfl, rfl⟩]
  | and x y | or x y | eor x y | add x y | sub x y =>
    simp only [transferOp]
    rw [operand_congr x fun k i hu => h k i (Or.inl hu), operand_congr y fun k i hu => h k i (Or.inr hu)]
  | not x => simp only [transferOp]; rw [operand_congr x h]
  | conv m x => simp only [transferOp]; rw [operand_congr x h]
  | shl x c | shr x c | shrs x c =>
    simp only [transferOp]
    rw [operand_congr x fun k i hu => h k i (Or.inl hu)]
  | _ => simp only [transferOp]

theorem foldl_congr {α β : Type} {f g : β → α → β} : ∀ (l : List α) (b : β), (∀ a ∈ l, ∀ b, f b a = g b a) → l.foldl f b = l.foldl g b
  | [], _, _ => rfl
  | a :: l, b, h => by
    simp only [List.foldl_cons]
    rw [h a List.mem_cons_self, foldl_congr l _ fun a ha => h a (List.mem_cons_of_mem _ ha)]

theorem transfer_congr {s s' : State} {k : Key} (h : ∀ p, Depends G k p → s p.1 p.2 = s' p.1 p.2) :
    transfer G s k.1 k.2 = transfer G s' k.1 k.2 := by
  unfold transfer
  unfold Depends at h
  split
  · rfl
  · split
    · next e he => rw [he] at h; exact transferOp_congr e fun k i hu => h ⟨k, i⟩ hu
    · next args he =>
      rw [he] at h
      cases args with
      | nil => rfl
      | cons i is =>
        have h0 := h ⟨k.1, i⟩ ⟨rfl, List.mem_cons_self⟩
        simp only at h0
        simp only [transferPhi]
        rw [h0, foldl_congr (g := phiStep k.1 s') is _ fun a ha b => by
          have := h ⟨k.1, a⟩ ⟨rfl, List.mem_cons_of_mem _ ha⟩
          simp only at this
          simp only [phiStep, this]]
    · rfl

theorem mergeRange_idem {r r' : Range m.bits} (hc : Compat r r') :
    mergeRange m.signed (mergeRange m.signed r r') r' = mergeRange m.signed r r' := by
  cases r with
  | undefined => cases r' <;> simp [mergeRange]
  | range b t =>
    cases r' with
    | range b' t' =>
      have key : ∀ x y : BitVec m.bits, ¬ BitInfo.tvCmp m.signed x x = Rel.less ∧ ¬ BitInfo.tvCmp m.signed x x = Rel.greater := by
        intro x y; rw [cmp_less, cmp_greater]; omega
      simp only [mergeRange]
      congr 1
      · split
        · rw [if_neg (key _ b).1]
        · rfl
      · split
        · rw [if_neg (key _ b).2]
        · rfl
    | anti b' t' => exact hc.elim
    | undefined => rfl
    | varying => rfl
  | anti b t =>
    unfold Compat at hc
    subst hc
    rw [mergeRange_anti, mergeRange_anti]
  | varying => rfl

theorem merge_idem {a : Attr m.bits} {new : New m.bits} (hc : Compat a.range new.range) :
    merge m.signed (merge m.signed a new) new = merge m.signed a new := by
  unfold merge
  split
  · simp only [mergeRange_idem hc]
  · simp only [mergeRange_idem hc, ← BitVec.or_assoc, BitVec.or_self, ← BitVec.and_assoc, BitVec.and_self]

theorem stable_of {s' : State} (hG : GraphOk G) (B : BitsInv G s') {k : Key} {new : New k.1.bits} (ht : transfer G s' k.1 k.2 = some new)
    (hm : merge k.1.signed (s' k.1 k.2) new = s' k.1 k.2) : Stable G s' k := by
  obtain ⟨s1, h1, _⟩ := B.update hG k.1 k.2
  obtain ⟨new1, h2, h3⟩ := updateNode_inv h1
  rw [ht] at h2
  cases h2
  rw [hm, put_eq] at h3
  subst h3
  exact h1

/-- after an update of `n` the node `k` is stable if it is not calculated from `n` and was stable or is `n` -/
theorem stable_update {s s' : State} (hG : GraphOk G) (I : Inv G s) (B : BitsInv G s) {n k : Key} (h : updateNode G s n.1 n.2 = some s')
    (hd : ¬ Depends G k n) (hk : k = n ∨ Stable G s k) : Stable G s' k := by
  have B' : BitsInv G s' := by
    obtain ⟨s1, h1, B1⟩ := B.update hG n.1 n.2
    rw [h] at h1
    cases h1
    exact B1
  have htr : transfer G s' k.1 k.2 = transfer G s k.1 k.2 := by
    refine transfer_congr fun p hp => updateNode_other h ?_
    rintro ⟨h1, h2⟩
    obtain ⟨pm, pn⟩ := p
    obtain ⟨nm, nn⟩ := n
    simp only at h1 h2
    subst h1 h2
    exact hd hp
  obtain ⟨new, ht, hs'⟩ := updateNode_inv h
  by_cases hkn : k = n
  · subst hkn
    refine stable_of hG B' (htr.trans ht) ?_
    rw [hs', put_same]
    exact merge_idem (compat I.kinds (I.notInt _ _) ht)
  · have hst := hk.resolve_left hkn
    obtain ⟨new1, ht1, h1⟩ := updateNode_inv hst
    have hne : ¬ (n.1 = k.1 ∧ k.2 = n.2) := by
      rintro ⟨h1, h2⟩
      obtain ⟨km, kn⟩ := k
      obtain ⟨nm, nn⟩ := n
      simp only at h1 h2
      subst h1 h2
      exact hkn rfl
    refine stable_of hG B' (htr.trans ht1) ?_
    have h2 : s k.1 k.2 = merge k.1.signed (s k.1 k.2) new1 := by
      conv => lhs; rw [h1]
      rw [put_same]
    rw [updateNode_other h hne]
    exact h2.symm

theorem firstPass_stable {outs : Key → List Key} (hG : GraphOk G) (ho : ∀ k p, Depends G k p → k ∈ outs p) :
    ∀ {ns : List Key} {s s' : State} {vis q q' : List Key}, Inv G s → BitsInv G s → (∀ k ∈ vis, k ∈ q ∨ Stable G s k) →
      firstPass G outs ns s vis q = some (s', q') → ∀ k, k ∈ ns ∨ k ∈ vis → k ∈ q' ∨ Stable G s' k
  | [], _, _, _, _, _, _, _, hs, he, k, hk => by
    cases he
    exact hs k (hk.resolve_left (by simp))
  | n :: ns, s, s', vis, q, q', I, B, hs, he, k, hk => by
    simp only [firstPass] at he
    split at he
    · cases he
    · next s1 h1 =>
      have B1 : BitsInv G s1 := by
        obtain ⟨s2, h2, B2⟩ := B.update hG n.1 n.2
        rw [h1] at h2
        cases h2
        exact B2
      refine firstPass_stable hG ho (I.update h1) B1 ?_ he k ?_
      · intro j hj
        by_cases hd : Depends G j n
        · exact Or.inl (List.mem_append_right _ (List.mem_filter.2 ⟨ho j n hd, by simpa using hj⟩))
        · rcases List.mem_cons.1 hj with rfl | hj
          · exact Or.inr (stable_update hG I B h1 hd (Or.inl rfl))
          · rcases hs j hj with h | h
            · exact Or.inl (List.mem_append_left _ h)
            · exact Or.inr (stable_update hG I B h1 hd (Or.inr h))
      · rcases hk with hk | hk
        · rcases List.mem_cons.1 hk with rfl | hk
          · exact Or.inr List.mem_cons_self
          · exact Or.inl hk
        · exact Or.inr (List.mem_cons_of_mem _ hk)

theorem workLoop_stable {outs : Key → List Key} (hG : GraphOk G) (ho : ∀ k p, Depends G k p → k ∈ outs p) (V : List Key) :
    ∀ {fuel : Nat} {s s' : State} {q : List Key}, Inv G s → BitsInv G s → (∀ k ∈ V, k ∈ q ∨ Stable G s k) →
      workLoop G outs fuel s q = some (some s') → ∀ k ∈ V, Stable G s' k
  | 0, _, _, [], _, _, hs, he, k, hk => by
    simp only [workLoop] at he; cases he
    exact (hs k hk).resolve_left (by simp)
  | fuel + 1, _, _, [], _, _, hs, he, k, hk => by
    simp only [workLoop] at he; cases he
    exact (hs k hk).resolve_left (by simp)
  | 0, _, _, n :: q, _, _, _, he, _, _ => by simp only [workLoop] at he; cases he
  | fuel + 1, s, s', n :: q, I, B, hs, he, k, hk => by
    simp only [workLoop] at he
    split at he
    · cases he
    · next s1 h1 =>
      have B1 : BitsInv G s1 := by
        obtain ⟨s2, h2, B2⟩ := B.update hG n.1 n.2
        rw [h1] at h2
        cases h2
        exact B2
      refine workLoop_stable hG ho V (I.update h1) B1 ?_ he k hk
      intro j hj
      by_cases hsame : s1 n.1 n.2 = s n.1 n.2
      · rw [if_pos hsame]
        have hsame := updateNode_same h1 hsame
        subst hsame
        rcases hs j hj with h | h
        · rcases List.mem_cons.1 h with rfl | h
          · exact Or.inr h1
          · exact Or.inl h
        · exact Or.inr h
      · rw [if_neg hsame]
        by_cases hd : Depends G j n
        · exact Or.inl (List.mem_append_right _ (ho j n hd))
        · rcases hs j hj with h | h
          · rcases List.mem_cons.1 h with rfl | h
            · exact Or.inr (stable_update hG I B h1 hd (Or.inl rfl))
            · exact Or.inl (List.mem_append_left _ h)
          · exact Or.inr (stable_update hG I B h1 hd (Or.inr h))

end Verif.Model.Vrp
