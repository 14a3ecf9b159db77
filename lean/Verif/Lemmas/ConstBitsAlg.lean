import Verif.Model.ConstBitsAlg
import Verif.Lemmas.ConstBitsIter
/-!
# The known-bits analysis: invariants of `get_bitinfo_recursive`
-/
namespace Verif.Model.ConstBits
open Verif.Spec Verif.Model.IrOpt

/-! ## States of nodes -/

theorem lookup_set_self (k : Key) (v : NState) : ∀ sts, lookupSt k (setSt k v sts) = v
  | [] => by simp [setSt, lookupSt]
  | p :: l => by
    unfold setSt
    split
    · simp [lookupSt]
    · next h => rw [lookupSt, if_neg h]; exact lookup_set_self k v l

theorem lookup_set_ne {k j : Key} (h : j ≠ k) (v : NState) : ∀ sts, lookupSt j (setSt k v sts) = lookupSt j sts
  | [] => by simp [setSt, lookupSt, Ne.symm h]
  | p :: l => by
    unfold setSt
    split
    · next hp => rw [lookupSt, lookupSt, if_neg (Ne.symm h), if_neg (by rw [hp]; exact Ne.symm h)]
    · rw [lookupSt, lookupSt, lookup_set_ne h v l]

/-- `trigger` only makes valid nodes unstable -/
def TrigRel (sts sts' : List (Key × NState)) : Prop :=
  ∀ j, lookupSt j sts' = lookupSt j sts ∨ (lookupSt j sts = .valid ∧ lookupSt j sts' = .unstable)

theorem TrigRel.refl (sts : List (Key × NState)) : TrigRel sts sts := fun _ => Or.inl rfl

theorem TrigRel.trans {a b c : List (Key × NState)} (h1 : TrigRel a b) (h2 : TrigRel b c) : TrigRel a c := by
  intro j
  rcases h1 j with h1 | ⟨h1, h1'⟩ <;> rcases h2 j with h2 | ⟨h2, h2'⟩
  · exact Or.inl (h2.trans h1)
  · exact Or.inr ⟨h1 ▸ h2, h2'⟩
  · exact Or.inr ⟨h1, h2.trans h1'⟩
  · rw [h1'] at h2; cases h2

theorem TrigRel.foldl {α : Type} {f : List (Key × NState) → α → List (Key × NState)} (hf : ∀ s a, TrigRel s (f s a)) :
    ∀ (l : List α) (s : List (Key × NState)), TrigRel s (l.foldl f s)
  | [], s => TrigRel.refl s
  | a :: l, s => (hf s a).trans (TrigRel.foldl hf l (f s a))

theorem trigger_rel (I : IrGraph) : ∀ (fuel : Nat) (sts : List (Key × NState)) (k : Key), TrigRel sts (I.trigger fuel sts k)
  | 0, sts, _ => TrigRel.refl sts
  | fuel + 1, sts, k => by
    unfold IrGraph.trigger
    split
    · next h =>
      refine TrigRel.trans ?_ (TrigRel.foldl (trigger_rel I fuel) _ _)
      intro j
      by_cases hj : j = k
      · subst hj; exact Or.inr ⟨h, lookup_set_self _ _ _⟩
      · exact Or.inl (lookup_set_ne hj _ _)
    · exact TrigRel.refl sts

theorem triggerUsers_rel (I : IrGraph) (sts : List (Key × NState)) (k : Key) : TrigRel sts (I.triggerUsers sts k) :=
  TrigRel.foldl (trigger_rel I _) _ _

/-! ## Expressions -/

theorem mem_leaves {m k : IMode} {i : Nat} (e : Expr m) : Key.data k i ∈ leaves e ↔ e.Uses k i := by
  induction e <;> simp_all [leaves, Expr.Uses]
  exact ⟨fun h => ⟨h.1.symm, h.2.symm⟩, fun h => ⟨h.1.symm, h.2.symm⟩⟩

theorem leaves_data {m : IMode} (e : Expr m) {k : Key} (h : k ∈ leaves e) : ∃ m i, k = .data m i := by
  induction e with
  | leaf m i => exact ⟨m, i, by simpa [leaves] using h⟩
  | const v => simp [leaves] at h
  | minus a ih => exact ih h
  | not a ih => exact ih h
  | conv m a ih => exact ih h
  | mux s f t ih1 ih2 ih3 =>
    simp only [leaves, List.mem_append] at h
    rcases h with (h | h) | h
    · exact ih1 h
    · exact ih2 h
    · exact ih3 h
  | _ =>
    rename_i ih1 ih2
    simp only [leaves, List.mem_append] at h
    exact h.elim ih1 ih2

theorem undefined_isUndefined (w : Nat) : (BitInfo.undefined w).isUndefined = true := isUndefined_iff.2 rfl

/-- an operation is undefined if an operand is -/
theorem bitsWith_undefined {σ : (m : IMode) → Nat → BitInfo m.bits} {m k : IMode} {i : Nat} (e : Expr m) (h : e.Uses k i)
    (hu : (σ k i).isUndefined = true) : bitsWith σ e = BitInfo.undefined m.bits := by
  induction e with
  | leaf m j => obtain ⟨rfl, rfl⟩ := h; exact isUndefined_iff.1 hu
  | const v => exact h.elim
  | minus a ih => rw [bitsWith, BitInfo.strict1, if_pos (by rw [ih h]; exact undefined_isUndefined _)]
  | not a ih => rw [bitsWith, BitInfo.strict1, if_pos (by rw [ih h]; exact undefined_isUndefined _)]
  | conv m a ih => rw [bitsWith, BitInfo.strict1, if_pos (by rw [ih h]; exact undefined_isUndefined _)]
  | mux s f t ih1 ih2 ih3 =>
    rw [bitsWith, if_pos]
    rcases h with h | h | h
    · simp [ih1 h, undefined_isUndefined]
    · simp [ih2 h, undefined_isUndefined]
    · simp [ih3 h, undefined_isUndefined]
  | _ =>
    rename_i ih1 ih2
    simp only [bitsWith]
    rw [BitInfo.strict2, if_pos]
    rcases h with h | h
    · simp [ih1 h, undefined_isUndefined]
    · simp [ih2 h, undefined_isUndefined]

theorem bitsWith_congr {σ τ : (m : IMode) → Nat → BitInfo m.bits} {m : IMode} (e : Expr m) (h : ∀ k i, e.Uses k i → σ k i = τ k i) :
    bitsWith σ e = bitsWith τ e := by
  induction e with
  | leaf m i => exact h m i ⟨rfl, rfl⟩
  | const v => rfl
  | minus a ih => simp only [bitsWith]; rw [ih h]
  | not a ih => simp only [bitsWith]; rw [ih h]
  | conv m a ih => simp only [bitsWith]; rw [ih h]
  | mux s f t ih1 ih2 ih3 =>
    simp only [bitsWith]
    rw [ih1 fun k i hk => h k i (Or.inl hk), ih2 fun k i hk => h k i (Or.inr (Or.inl hk)), ih3 fun k i hk => h k i (Or.inr (Or.inr hk))]
  | _ =>
    rename_i ih1 ih2
    simp only [bitsWith]
    rw [ih1 fun k i hk => h k i (Or.inl hk), ih2 fun k i hk => h k i (Or.inr hk)]

/-! ## Dependencies -/

/-- the hypotheses on the operations -/
abbrev Plain (G : SsaGraph) : Prop := ∀ m n e, G.node m n = .op e → e.WellFormed ∧ regular e = true ∧ noConfirmEq e = true

variable {I : IrGraph}

/-- what holds between calls -/
structure GInv (I : IrGraph) (mem : Mem) : Prop where
  good : mem.s.Good
  post : ∀ k, (mem.s.at k).Le (transfer I.G I.last mem.s k)
  bot : ∀ k, lookupSt k mem.sts = .invalid → mem.s.at k = BitInfo.undefined k.w
  ub : ∀ f, Fixpoint I.G I.last f → mem.s.Le f

/-- what a call may change -/
structure Adv (I : IrGraph) (mem mem' : Mem) : Prop where
  le : mem.s.Le mem'.s
  fly : ∀ j, lookupSt j mem'.sts = .inFlight ↔ lookupSt j mem.sts = .inFlight
  flyval : ∀ j, lookupSt j mem.sts = .inFlight → mem'.s.at j = mem.s.at j
  stay : (∀ j, mem'.s.at j = mem.s.at j) → ∀ j, lookupSt j mem.sts = .valid → lookupSt j mem'.sts = .valid
  out : ∀ j, j ∉ I.nodes → mem'.s.at j = mem.s.at j

theorem Adv.refl (mem : Mem) : Adv I mem mem := ⟨State.le_refl _, fun _ => Iff.rfl, fun _ _ => rfl, fun _ _ => id, fun _ _ => rfl⟩

theorem Adv.trans {a b c : Mem} (h1 : Adv I a b) (h2 : Adv I b c) : Adv I a c where
  le := State.le_trans h1.le h2.le
  fly j := (h2.fly j).trans (h1.fly j)
  flyval j hj := (h2.flyval j ((h1.fly j).2 hj)).trans (h1.flyval j hj)
  stay he j hj := by
    have e1 : ∀ j, b.s.at j = a.s.at j := fun j => le_antisymm (he j ▸ h2.le j) (h1.le j)
    exact h2.stay (fun j => (he j).trans (e1 j).symm) j (h1.stay e1 j hj)
  out j hj := (h2.out j hj).trans (h1.out j hj)

/-- what a call of `get_bitinfo_recursive` does -/
def GetOk (I : IrGraph) (get : Key → Mem → Option Mem) : Prop :=
  ∀ k, k ∈ I.nodes → ∀ mem mem', GInv I mem → get k mem = some mem' →
    GInv I mem' ∧ Adv I mem mem' ∧ (lookupSt k mem'.sts = .valid ∨ lookupSt k mem'.sts = .inFlight)

section
variable {get : Key → Mem → Option Mem}

/-- what a call of `transfer` does: the result lies between the results for the states at the beginning and at the end -/
structure TransOk (I : IrGraph) (mem : Mem) (k : Key) (mem' : Mem) (v : BitInfo k.w) : Prop where
  inv : GInv I mem'
  adv : Adv I mem mem'
  low : (transfer I.G I.last mem.s k).Le v
  high : v.Le (transfer I.G I.last mem'.s k)
  good : v.Good

theorem transOk_mid (hP : Plain I.G) {mem mem' : Mem} {k : Key} {v : BitInfo k.w} (h0 : GInv I mem) (hi : GInv I mem') (ha : Adv I mem mem')
    (hv : v = transfer I.G I.last mem'.s k) : TransOk I mem k mem' v := by
  subst hv
  exact ⟨hi, ha, transfer_le hP ha.le h0.good k, Model.le_refl _, transfer_good hP hi.good k⟩

theorem bind_some {α β : Type} {o : Option α} {f : α → Option β} {b : β} (h : o.bind f = some b) : ∃ a, o = some a ∧ f a = some b :=
  Option.bind_eq_some_iff.1 h

theorem z_cases (z : BitVec 1) : z = 0#1 ∨ z = 1#1 := by revert z; decide

theorem transferXA_ok (hP : Plain I.G) (hg : GetOk I get) {x : Nat} (hd : ∀ j ∈ I.deps (.x x), j ∈ I.nodes) {mem mem' : Mem} {v : BitInfo 1}
    (hi : GInv I mem) (h : transferXA I get x mem = some (mem', v)) : TransOk I mem (.x x) mem' v := by
  unfold transferXA at h
  obtain ⟨m1, h1, h⟩ := bind_some h
  obtain ⟨i1, a1, -⟩ := hg _ (hd _ (by simp [IrGraph.deps])) _ _ hi h1
  split at h
  · next hz =>
    cases h
    exact transOk_mid hP hi i1 a1 (by simp only [transfer, transferX]; rw [if_pos hz])
  · next hz =>
    split at h
    · next hx =>
      cases h
      exact transOk_mid hP hi i1 a1 (by simp only [transfer, transferX]; rw [if_neg hz, hx])
    · next sel num hx =>
      obtain ⟨m2, h2, h⟩ := bind_some h
      obtain ⟨i2, a2, -⟩ := hg _ (hd _ (by simp [IrGraph.deps, hx])) _ _ i1 h2
      have hz2 : ¬ (m2.s.block (I.G.xblock x)).z = 0#1 := fun hh => hz ((le_bool (a2.le (.block _))).1 hh)
      cases h
      refine transOk_mid hP hi i2 (a1.trans a2) ?_
      simp only [transfer, transferX]
      rw [if_neg hz2, hx]
    · next k sel hx =>
      obtain ⟨m2, h2, h⟩ := bind_some h
      obtain ⟨i2, a2, -⟩ := hg _ (hd _ (by simp [IrGraph.deps, hx])) _ _ i1 h2
      have hz2 : ¬ (m2.s.block (I.G.xblock x)).z = 0#1 := fun hh => hz ((le_bool (a2.le (.block _))).1 hh)
      cases h
      refine transOk_mid hP hi i2 (a1.trans a2) ?_
      simp only [transfer, transferX]
      rw [if_neg hz2, hx]
    · next hx =>
      cases h
      exact transOk_mid hP hi i1 a1 (by simp only [transfer, transferX]; rw [if_neg hz, hx])
    · next hx =>
      cases h
      exact transOk_mid hP hi i1 a1 (by simp only [transfer, transferX]; rw [if_neg hz, hx])

theorem blockLoop_ok (hg : GetOk I get) : ∀ (xs : List Nat) (r : Bool) (mem mem' : Mem) (r' : Bool), (∀ x ∈ xs, Key.x x ∈ I.nodes) → GInv I mem →
    blockLoop get xs r mem = some (mem', r') →
    GInv I mem' ∧ Adv I mem mem' ∧ ((r = true ∨ ∃ x ∈ xs, (mem.s.x x).z = 1#1) → r' = true) ∧ (r' = true → r = true ∨ ∃ x ∈ xs, (mem'.s.x x).z = 1#1)
  | [], r, mem, mem', r', _, hi, h => by
    simp only [blockLoop, Option.some.injEq, Prod.mk.injEq] at h
    obtain ⟨rfl, rfl⟩ := h
    exact ⟨hi, Adv.refl _, by simp, by simp⟩
  | x :: xs, r, mem, mem', r', hm, hi, h => by
    unfold blockLoop at h
    obtain ⟨m1, h1, h⟩ := bind_some h
    obtain ⟨i1, a1, -⟩ := hg _ (hm x List.mem_cons_self) _ _ hi h1
    obtain ⟨i2, a2, hl, hu⟩ := blockLoop_ok hg xs _ _ _ _ (fun y hy => hm y (List.mem_cons_of_mem _ hy)) i1 h
    refine ⟨i2, a1.trans a2, ?_, ?_⟩
    · rintro (hr | ⟨y, hy, hz⟩)
      · exact hl (Or.inl (by simp [hr]))
      · rcases List.mem_cons.1 hy with rfl | hy
        · have hz1 : (m1.s.x y).z = 1#1 := (le_bool (a1.le (.x y))).2 hz
          exact hl (Or.inl (by simp [hz1]))
        · exact hl (Or.inr ⟨y, hy, (le_bool (a1.le (.x y))).2 hz⟩)
    · intro hr
      rcases hu hr with h | ⟨y, hy, hz⟩
      · simp only [Bool.or_eq_true, decide_eq_true_eq] at h
        rcases h with h | h
        · exact Or.inl h
        · exact Or.inr ⟨x, List.mem_cons_self, (le_bool (a2.le (.x x))).2 h⟩
      · exact Or.inr ⟨y, List.mem_cons_of_mem _ hy, hz⟩

theorem transferBlockA_ok (hg : GetOk I get) {b : Nat} (hd : ∀ j ∈ I.deps (.block b), j ∈ I.nodes) {mem mem' : Mem} {v : BitInfo 1}
    (hi : GInv I mem) (h : transferBlockA I get b mem = some (mem', v)) : TransOk I mem (.block b) mem' v := by
  unfold transferBlockA at h
  obtain ⟨⟨m1, r⟩, h1, h⟩ := bind_some h
  cases h
  obtain ⟨i1, a1, hl, hu⟩ := blockLoop_ok hg _ _ _ _ _ (fun x hx => hd _ (List.mem_map_of_mem hx)) hi h1
  refine ⟨i1, a1, ?_, ?_, ?_⟩
  · simp only [transfer, transferBlock]
    by_cases hc : ((I.G.preds b).any (fun x => (mem.s.x x).z = 1#1) || b = I.G.start || b = I.last) = true
    · rw [if_pos hc, if_pos]
      · exact Model.le_refl _
      · simp only [Bool.or_eq_true, List.any_eq_true, decide_eq_true_eq] at hc ⊢
        exact hc.imp (Or.imp (fun hx => hl (Or.inr hx)) id) id
    · rw [if_neg hc]; exact undefined_le _
  · simp only [transfer, transferBlock]
    by_cases hc : (r || b = I.G.start || b = I.last) = true
    · rw [if_pos hc, if_pos]
      · exact Model.le_refl _
      · simp only [Bool.or_eq_true, List.any_eq_true, decide_eq_true_eq] at hc ⊢
        exact hc.imp (Or.imp (fun hx => (hu hx).resolve_left (by decide)) id) id
    · rw [if_neg hc]; exact undefined_le _
  · simp only
    split
    · exact Or.inr maybe_cons
    · exact Or.inl rfl

/-- the state of a Phi, beginning with `acc` -/
def phiFold (s : State) (m : IMode) (l : List (Nat × Nat)) (acc : BitInfo m.bits) : BitInfo m.bits :=
  (l.map fun p => (decide ((s.x p.1).z ≠ 0#1), s.data m p.2)).foldl (fun acc p => if p.1 then acc.join p.2 else acc) acc

theorem phiFold_le {s t : State} (h : s.Le t) (m : IMode) (l : List (Nat × Nat)) {acc acc' : BitInfo m.bits} (ha : acc.Le acc') :
    (phiFold s m l acc).Le (phiFold t m l acc') := by
  refine phi_foldl_le (r := fun p : Nat × Nat => decide ((s.x p.1).z ≠ 0#1)) (r' := fun p => decide ((t.x p.1).z ≠ 0#1)) ?_ ?_ l acc acc' ha
  · intro a ha
    simp only [decide_eq_true_eq] at ha ⊢
    exact fun h' => ha ((le_bool (h (.x a.1))).1 h')
  · exact fun a => h (.data m a.2)

theorem phiFold_cons (s : State) (m : IMode) (x a : Nat) (l : List (Nat × Nat)) (acc : BitInfo m.bits) :
    phiFold s m ((x, a) :: l) acc = phiFold s m l (if (s.x x).z ≠ 0#1 then acc.join (s.data m a) else acc) := by
  simp only [phiFold, List.map_cons, List.foldl_cons, decide_eq_true_eq]

theorem phiLoop_ok (hg : GetOk I get) (m : IMode) : ∀ (l : List (Nat × Nat)) (acc : BitInfo m.bits) (mem mem' : Mem) (v : BitInfo m.bits),
    (∀ p ∈ l, Key.x p.1 ∈ I.nodes ∧ Key.data m p.2 ∈ I.nodes) → GInv I mem → acc.Good → phiLoop get m l acc mem = some (mem', v) →
    GInv I mem' ∧ Adv I mem mem' ∧ (phiFold mem.s m l acc).Le v ∧ v.Le (phiFold mem'.s m l acc) ∧ v.Good ∧
      ((∀ j, mem'.s.at j = mem.s.at j) → ∀ p ∈ l, (mem.s.x p.1).z ≠ 0#1 → lookupSt (.data m p.2) mem'.sts = .valid ∨ lookupSt (.data m p.2) mem'.sts = .inFlight)
  | [], acc, mem, mem', v, _, hi, hgd, h => by
    simp only [phiLoop, Option.some.injEq, Prod.mk.injEq] at h
    obtain ⟨rfl, rfl⟩ := h
    exact ⟨hi, Adv.refl _, Model.le_refl _, Model.le_refl _, hgd, by simp⟩
  | (x, a) :: l, acc, mem, mem', v, hm, hi, hgd, h => by
    unfold phiLoop at h
    obtain ⟨m1, h1, h⟩ := bind_some h
    obtain ⟨i1, a1, -⟩ := hg _ (hm _ List.mem_cons_self).1 _ _ hi h1
    rw [phiFold_cons, phiFold_cons]
    split at h
    · next hz =>
      obtain ⟨m2, h2, h⟩ := bind_some h
      obtain ⟨i2, a2, st2⟩ := hg _ (hm _ List.mem_cons_self).2 _ _ i1 h2
      obtain ⟨i3, a3, lo, hu, gd, st3⟩ := phiLoop_ok hg m l _ _ _ _ (fun p hp => hm p (List.mem_cons_of_mem _ hp)) i2 (join_good hgd (i2.good (.data m a))) h
      refine ⟨i3, a1.trans (a2.trans a3), ?_, ?_, gd, ?_⟩
      · refine Model.le_trans (phiFold_le (a1.trans a2).le m l ?_) lo
        split
        · exact join_le (Model.le_refl _) ((a1.trans a2).le (.data m a))
        · exact le_join_left _ _
      · refine Model.le_trans hu (phiFold_le (State.le_refl _) m l ?_)
        have hz3 : (mem'.s.x x).z ≠ 0#1 := fun hh => hz ((le_bool ((a2.trans a3).le (.x x))).1 hh)
        rw [if_pos hz3]
        exact join_le (Model.le_refl _) (a3.le (.data m a))
      · intro he p hp hpz
        have e1 : ∀ j, m1.s.at j = mem.s.at j := fun j => le_antisymm (he j ▸ (a2.trans a3).le j) (a1.le j)
        have e2 : ∀ j, m2.s.at j = mem.s.at j := fun j => le_antisymm (he j ▸ a3.le j) ((a1.trans a2).le j)
        have e3 : ∀ j, mem'.s.at j = m2.s.at j := fun j => (he j).trans (e2 j).symm
        rcases List.mem_cons.1 hp with rfl | hp
        · rcases st2 with st2 | st2
          · exact Or.inl (a3.stay e3 _ st2)
          · exact Or.inr ((a3.fly _).2 st2)
        · refine st3 e3 p hp ?_
          have := e2 (.x p.1)
          simp only [State.at] at this
          rw [this]; exact hpz
    · next hz =>
      obtain ⟨i3, a3, lo, hu, gd, st3⟩ := phiLoop_ok hg m l _ _ _ _ (fun p hp => hm p (List.mem_cons_of_mem _ hp)) i1 hgd h
      have hz : (m1.s.x x).z = 0#1 := Decidable.not_not.1 hz
      refine ⟨i3, a1.trans a3, ?_, ?_, gd, ?_⟩
      · rw [if_neg (fun hh => hh ((le_bool (a1.le (.x x))).1 hz))]
        exact Model.le_trans (phiFold_le a1.le m l (Model.le_refl _)) lo
      · refine Model.le_trans hu (phiFold_le (State.le_refl _) m l ?_)
        split
        · exact le_join_left _ _
        · exact Model.le_refl _
      · intro he p hp hpz
        have e1 : ∀ j, m1.s.at j = mem.s.at j := fun j => le_antisymm (he j ▸ a3.le j) (a1.le j)
        have e1x : ∀ x, m1.s.x x = mem.s.x x := fun x => e1 (.x x)
        rcases List.mem_cons.1 hp with rfl | hp
        · exact absurd (by rw [← e1x]; exact hz) hpz
        · exact st3 (fun j => (he j).trans (e1 j).symm) p hp (by rw [e1x]; exact hpz)

theorem phiCheck_ok (hg : GetOk I get) (m : IMode) : ∀ (l : List (Nat × Nat)) (mem mem' : Mem) (r : Bool),
    (∀ p ∈ l, Key.x p.1 ∈ I.nodes ∧ Key.data m p.2 ∈ I.nodes) → GInv I mem → phiCheck get m l mem = some (mem', r) →
    GInv I mem' ∧ Adv I mem mem' ∧ (r = true → (∀ j, mem'.s.at j = mem.s.at j) →
      (∀ p ∈ l, (mem.s.x p.1).z ≠ 0#1 → lookupSt (.data m p.2) mem.sts = .valid ∨ lookupSt (.data m p.2) mem.sts = .inFlight) → False)
  | [], mem, mem', r, _, hi, h => by
    simp only [phiCheck, Option.some.injEq, Prod.mk.injEq] at h
    obtain ⟨rfl, rfl⟩ := h
    exact ⟨hi, Adv.refl _, by simp⟩
  | (x, a) :: l, mem, mem', r, hm, hi, h => by
    unfold phiCheck at h
    obtain ⟨m1, h1, h⟩ := bind_some h
    obtain ⟨i1, a1, -⟩ := hg _ (hm _ List.mem_cons_self).1 _ _ hi h1
    split at h
    · next hz =>
      cases h
      refine ⟨i1, a1, fun _ he hv => ?_⟩
      simp only [Bool.and_eq_true, decide_eq_true_eq] at hz
      have e1x : ∀ x, mem'.s.x x = mem.s.x x := fun x => he (.x x)
      rcases hv _ List.mem_cons_self (by rw [← e1x]; exact hz.1) with h | h
      · have := a1.stay he _ h
        rw [hz.2] at this; cases this
      · have := (a1.fly _).2 h
        rw [hz.2] at this; cases this
    · obtain ⟨i2, a2, hr⟩ := phiCheck_ok hg m l _ _ _ (fun p hp => hm p (List.mem_cons_of_mem _ hp)) i1 h
      refine ⟨i2, a1.trans a2, fun hr' he hv => ?_⟩
      have e1 : ∀ j, m1.s.at j = mem.s.at j := fun j => le_antisymm (he j ▸ a2.le j) (a1.le j)
      have e1x : ∀ x, m1.s.x x = mem.s.x x := fun x => e1 (.x x)
      refine hr hr' (fun j => (he j).trans (e1 j).symm) fun p hp hpz => ?_
      rcases hv p (List.mem_cons_of_mem _ hp) (by rw [← e1x]; exact hpz) with h | h
      · exact Or.inl (a1.stay e1 _ h)
      · exact Or.inr ((a1.fly _).2 h)

theorem transferPhiA_ok (hg : GetOk I get) (m : IMode) (l : List (Nat × Nat)) (hm : ∀ p ∈ l, Key.x p.1 ∈ I.nodes ∧ Key.data m p.2 ∈ I.nodes) :
    ∀ (fuel : Nat) (mem mem' : Mem) (v : BitInfo m.bits), GInv I mem → transferPhiA get m l fuel mem = some (mem', v) →
    GInv I mem' ∧ Adv I mem mem' ∧ (phiFold mem.s m l (BitInfo.undefined m.bits)).Le v ∧ v.Le (phiFold mem'.s m l (BitInfo.undefined m.bits)) ∧ v.Good
  | 0, _, _, _, _, h => by cases h
  | fuel + 1, mem, mem', v, hi, h => by
    unfold transferPhiA at h
    obtain ⟨⟨m1, v1⟩, h1, h⟩ := bind_some h
    obtain ⟨i1, a1, lo, hu, gd, -⟩ := phiLoop_ok hg m l _ _ _ _ hm hi (Or.inl rfl) h1
    obtain ⟨⟨m2, r⟩, h2, h⟩ := bind_some h
    obtain ⟨i2, a2, -⟩ := phiCheck_ok hg m l _ _ _ hm i1 h2
    split at h
    · obtain ⟨i3, a3, lo3, hu3, gd3⟩ := transferPhiA_ok hg m l hm fuel _ _ _ i2 h
      exact ⟨i3, a1.trans (a2.trans a3), Model.le_trans (phiFold_le (a1.trans a2).le m l (Model.le_refl _)) lo3, hu3, gd3⟩
    · cases h
      exact ⟨i2, a1.trans a2, lo, Model.le_trans hu (phiFold_le a2.le m l (Model.le_refl _)), gd⟩

theorem anyUndefined_ok (hg : GetOk I get) : ∀ (ks : List Key) (mem mem' : Mem) (r : Bool), (∀ k ∈ ks, k ∈ I.nodes) → GInv I mem →
    anyUndefined get ks mem = some (mem', r) → GInv I mem' ∧ Adv I mem mem' ∧ (r = true → ∃ k ∈ ks, (mem'.s.at k).isUndefined = true)
  | [], mem, mem', r, _, hi, h => by
    simp only [anyUndefined, Option.some.injEq, Prod.mk.injEq] at h
    obtain ⟨rfl, rfl⟩ := h
    exact ⟨hi, Adv.refl _, by simp⟩
  | k :: ks, mem, mem', r, hm, hi, h => by
    unfold anyUndefined at h
    obtain ⟨m1, h1, h⟩ := bind_some h
    obtain ⟨i1, a1, -⟩ := hg _ (hm _ List.mem_cons_self) _ _ hi h1
    split at h
    · next hu => cases h; exact ⟨i1, a1, fun _ => ⟨k, List.mem_cons_self, hu⟩⟩
    · obtain ⟨i2, a2, hr⟩ := anyUndefined_ok hg ks _ _ _ (fun k hk => hm k (List.mem_cons_of_mem _ hk)) i1 h
      exact ⟨i2, a1.trans a2, fun h => (hr h).imp fun _ h => ⟨List.mem_cons_of_mem _ h.1, h.2⟩⟩

theorem getAll_ok (hg : GetOk I get) : ∀ (ks : List Key) (mem mem' : Mem), (∀ k ∈ ks, k ∈ I.nodes) → GInv I mem →
    getAll get ks mem = some mem' → GInv I mem' ∧ Adv I mem mem'
  | [], mem, mem', _, hi, h => by
    simp only [getAll, Option.some.injEq] at h
    subst h
    exact ⟨hi, Adv.refl _⟩
  | k :: ks, mem, mem', hm, hi, h => by
    unfold getAll at h
    obtain ⟨m1, h1, h⟩ := bind_some h
    obtain ⟨i1, a1, -⟩ := hg _ (hm _ List.mem_cons_self) _ _ hi h1
    obtain ⟨i2, a2⟩ := getAll_ok hg ks _ _ (fun k hk => hm k (List.mem_cons_of_mem _ hk)) i1 h
    exact ⟨i2, a1.trans a2⟩

theorem phi_pairs {m : IMode} {n : Nat} {args : List Nat} (hn : I.G.node m n = .phi args) (hd : ∀ j ∈ I.deps (.data m n), j ∈ I.nodes) :
    ∀ p ∈ (I.G.preds (I.G.blockOf m n)).zip args, Key.x p.1 ∈ I.nodes ∧ Key.data m p.2 ∈ I.nodes := by
  intro p hp
  obtain ⟨h1, h2⟩ := List.of_mem_zip hp
  simp only [IrGraph.deps, hn, List.mem_append, List.mem_map] at hd
  exact ⟨hd _ (Or.inl ⟨_, h1, rfl⟩), hd _ (Or.inr ⟨_, h2, rfl⟩)⟩

theorem transferDataA_ok (hP : Plain I.G) (hg : GetOk I get) {fuel : Nat} {m : IMode} {n : Nat} (hd : ∀ j ∈ I.deps (.data m n), j ∈ I.nodes)
    {mem mem' : Mem} {v : BitInfo m.bits} (hi : GInv I mem) (h : transferDataA I get fuel m n mem = some (mem', v)) :
    TransOk I mem (.data m n) mem' v := by
  unfold transferDataA at h
  split at h
  · next args hn =>
    obtain ⟨i1, a1, lo, hu, gd⟩ := transferPhiA_ok hg m _ (phi_pairs hn hd) _ _ _ _ hi h
    refine ⟨i1, a1, ?_, ?_, gd⟩
    · simp only [transfer, transferData, hn]; exact lo
    · simp only [transfer, transferData, hn]; exact hu
  · next e hn =>
    have hl : ∀ k ∈ leaves e, k ∈ I.nodes := by simpa only [IrGraph.deps, hn] using hd
    obtain ⟨⟨m1, r⟩, h1, h⟩ := bind_some h
    obtain ⟨i1, a1, hr⟩ := anyUndefined_ok hg _ _ _ _ hl hi h1
    split at h
    · next hr' =>
      cases h
      obtain ⟨k, hk, hku⟩ := hr hr'
      obtain ⟨m', i, rfl⟩ := leaves_data e hk
      refine transOk_mid hP hi i1 a1 ?_
      simp only [transfer, transferData, hn]
      exact (bitsWith_undefined e ((mem_leaves e).1 hk) hku).symm
    · obtain ⟨m2, h2, h⟩ := bind_some h
      obtain ⟨i2, a2⟩ := getAll_ok hg _ _ _ hl i1 h2
      cases h
      exact transOk_mid hP hi i2 (a1.trans a2) (by simp only [transfer, transferData, hn]; rfl)
  · next hn =>
    cases h
    exact transOk_mid hP hi hi (Adv.refl _) (by simp only [transfer, transferData, hn]; rfl)

theorem transferA_ok (hP : Plain I.G) (hg : GetOk I get) {fuel : Nat} {k : Key} (hd : ∀ j ∈ I.deps k, j ∈ I.nodes)
    {mem mem' : Mem} {v : BitInfo k.w} (hi : GInv I mem) (h : transferA I get fuel mem k = some (mem', v)) : TransOk I mem k mem' v := by
  cases k with
  | data m n => exact transferDataA_ok hP hg hd hi h
  | block b => exact transferBlockA_ok hg hd hi h
  | x x => exact transferXA_ok hP hg hd hi h

theorem inFlight_inv {mem : Mem} (hi : GInv I mem) (k : Key) : GInv I { mem with sts := setSt k .inFlight mem.sts } := by
  refine ⟨hi.good, hi.post, fun j hj => ?_, hi.ub⟩
  by_cases hjk : j = k
  · subst hjk; simp only [lookup_set_self] at hj; cases hj
  · simp only [lookup_set_ne hjk] at hj; exact hi.bot j hj

/-- one round of `calc_bitinfo` in which the state of the node changes -/
theorem calc_step (hP : Plain I.G) (hg : GetOk I get) {tfuel : Nat} {k : Key} (hk : k ∈ I.nodes) (hd : ∀ j ∈ I.deps k, j ∈ I.nodes) {mem m1 : Mem}
    {v : BitInfo k.w} (hi : GInv I mem) (hk0 : lookupSt k mem.sts ≠ .inFlight)
    (h1 : transferA I get tfuel { mem with sts := setSt k .inFlight mem.sts } k = some (m1, v)) (hv : ¬ v = m1.s.at k) :
    GInv I ⟨I.triggerUsers (setSt k .valid m1.sts) k, m1.s.set k v⟩ ∧ Adv I mem ⟨I.triggerUsers (setSt k .valid m1.sts) k, m1.s.set k v⟩ := by
  have ht := transferA_ok hP hg hd (inFlight_inv hi k) h1
  have hkv : m1.s.at k = mem.s.at k := ht.adv.flyval k (lookup_set_self _ _ _)
  have hfly1 : ∀ j, j ≠ k → (lookupSt j m1.sts = .inFlight ↔ lookupSt j mem.sts = .inFlight) := fun j hj => by
    have := ht.adv.fly j
    simp only [lookup_set_ne hj] at this
    exact this
  have hup : (m1.s.at k).Le v := by
    rw [hkv]
    exact Model.le_trans (hi.post k) ht.low
  have hss : m1.s.Le (m1.s.set k v) := by
    intro j
    by_cases hjk : j = k
    · subst hjk; rw [at_set_self]; exact hup
    · rw [at_set_ne _ _ _ hjk]; exact Model.le_refl _
  have hgood : (m1.s.set k v).Good := by
    intro j
    by_cases hjk : j = k
    · subst hjk; rw [at_set_self]; exact ht.good
    · rw [at_set_ne _ _ _ hjk]; exact ht.inv.good j
  have htr := triggerUsers_rel I (setSt k .valid m1.sts) k
  have i2 : GInv I ⟨I.triggerUsers (setSt k .valid m1.sts) k, m1.s.set k v⟩ := by
    refine ⟨hgood, fun j => ?_, fun j hj => ?_, fun f hf j => ?_⟩
    · by_cases hjk : j = k
      · subst hjk
        simp only [at_set_self]
        exact Model.le_trans ht.high (transfer_le hP hss ht.inv.good j)
      · simp only [at_set_ne _ _ _ hjk]
        exact Model.le_trans (ht.inv.post j) (transfer_le hP hss ht.inv.good j)
    · have hjn : j ≠ k := by
        rintro rfl
        rcases htr j with h' | ⟨_, h'⟩
        · rw [lookup_set_self] at h'; simp only [h'] at hj; cases hj
        · simp only [h'] at hj; cases hj
      simp only [at_set_ne _ _ _ hjn]
      refine ht.inv.bot j ?_
      rcases htr j with h' | ⟨_, h'⟩
      · rw [lookup_set_ne hjn] at h'; rw [← h']; exact hj
      · simp only [h'] at hj; cases hj
    · by_cases hjk : j = k
      · subst hjk
        simp only [at_set_self]
        have e : f.at j = transfer I.G I.last f j := by
          cases j with
          | data m n => exact hf.data m n
          | block b => exact hf.block b
          | x x => exact hf.x x
        rw [e]
        exact Model.le_trans ht.high (transfer_le hP (ht.inv.ub f hf) ht.inv.good j)
      · simp only [at_set_ne _ _ _ hjk]; exact ht.inv.ub f hf j
  have a2 : Adv I mem ⟨I.triggerUsers (setSt k .valid m1.sts) k, m1.s.set k v⟩ := by
    refine ⟨State.le_trans ht.adv.le hss, fun j => ?_, fun j hj => ?_, fun he j hj => ?_, fun j hj => ?_⟩
    · by_cases hjk : j = k
      · subst hjk
        constructor
        · intro hh
          rcases htr j with h' | ⟨_, h'⟩
          · rw [lookup_set_self] at h'; simp only [h'] at hh; cases hh
          · simp only [h'] at hh; cases hh
        · exact fun hh => absurd hh hk0
      · rw [← hfly1 j hjk]
        rcases htr j with h' | ⟨h'', h'⟩
        · rw [lookup_set_ne hjk] at h'; simp only [h']
        · rw [lookup_set_ne hjk] at h''
          simp only [h', h'']
          exact ⟨fun h => (by cases h), fun h => (by cases h)⟩
    · have hjk : j ≠ k := by rintro rfl; exact hk0 hj
      simp only [at_set_ne _ _ _ hjk]
      exact ht.adv.flyval j (by simp only [lookup_set_ne hjk]; exact hj)
    · exfalso
      have := he k
      simp only [at_set_self] at this
      exact hv (this.trans hkv.symm)
    · have hjk : j ≠ k := by rintro rfl; exact hj hk
      simp only [at_set_ne _ _ _ hjk]
      exact ht.adv.out j hj
  exact ⟨i2, a2⟩

theorem calcInfo_ok (hP : Plain I.G) (hg : GetOk I get) {tfuel : Nat} {k : Key} (hk : k ∈ I.nodes) (hd : ∀ j ∈ I.deps k, j ∈ I.nodes) :
    ∀ (fuel : Nat) (mem mem' : Mem), GInv I mem → lookupSt k mem.sts ≠ .inFlight → calcInfo I get tfuel fuel k mem = some mem' →
      GInv I mem' ∧ Adv I mem mem' ∧ lookupSt k mem'.sts = .valid
  | 0, _, _, _, _, h => by cases h
  | fuel + 1, mem, mem', hi, hk0, h => by
    unfold calcInfo at h
    obtain ⟨⟨m1, v⟩, h1, h⟩ := bind_some h
    have i0 := inFlight_inv hi k
    have ht := transferA_ok hP hg hd i0 h1
    have hkv : m1.s.at k = mem.s.at k := ht.adv.flyval k (lookup_set_self _ _ _)
    have hfly1 : ∀ j, j ≠ k → (lookupSt j m1.sts = .inFlight ↔ lookupSt j mem.sts = .inFlight) := fun j hj => by
      have := ht.adv.fly j
      simp only [lookup_set_ne hj] at this
      exact this
    dsimp only at h
    split at h
    · next hv =>
      cases h
      refine ⟨⟨ht.inv.good, ht.inv.post, fun j hj => ?_, ht.inv.ub⟩, ⟨ht.adv.le, fun j => ?_, fun j hj => ?_, fun he j hj => ?_, ht.adv.out⟩, lookup_set_self _ _ _⟩
      · by_cases hjk : j = k
        · subst hjk; simp only [lookup_set_self] at hj; cases hj
        · simp only [lookup_set_ne hjk] at hj; exact ht.inv.bot j hj
      · by_cases hjk : j = k
        · subst hjk; simp only [lookup_set_self]; exact ⟨fun h => (by cases h), fun h => absurd h hk0⟩
        · simp only [lookup_set_ne hjk]; exact hfly1 j hjk
      · by_cases hjk : j = k
        · subst hjk; exact hkv
        · exact ht.adv.flyval j (by simp only [lookup_set_ne hjk]; exact hj)
      · by_cases hjk : j = k
        · subst hjk; exact lookup_set_self _ _ _
        · simp only [lookup_set_ne hjk]
          exact ht.adv.stay he j (by simp only [lookup_set_ne hjk]; exact hj)
    · next hv =>
      obtain ⟨i2, a2⟩ := calc_step hP hg hk hd hi hk0 h1 hv
      split at h
      · next hl => cases h; exact ⟨i2, a2, hl⟩
      · have hk2 : lookupSt k (I.triggerUsers (setSt k .valid m1.sts) k) ≠ .inFlight := fun hh => hk0 ((a2.fly k).1 hh)
        obtain ⟨i3, a3, hl⟩ := calcInfo_ok hP hg hk hd fuel _ _ i2 hk2 h
        exact ⟨i3, a2.trans a3, hl⟩

end

theorem set_bottom {mem : Mem} (hi : GInv I mem) {k : Key} (h : lookupSt k mem.sts = .invalid) (j : Key) :
    (mem.s.set k (BitInfo.undefined k.w)).at j = mem.s.at j := by
  by_cases hj : j = k
  · subst hj; rw [at_set_self, hi.bot j h]
  · rw [at_set_ne _ _ _ hj]

theorem State.ext_at {s t : State} (h : ∀ j, s.at j = t.at j) : s = t := by
  obtain ⟨a, b, c⟩ := s
  obtain ⟨a', b', c'⟩ := t
  have h1 : a = a' := funext fun m => funext fun n => h (.data m n)
  have h2 : b = b' := funext fun n => h (.block n)
  have h3 : c = c' := funext fun n => h (.x n)
  subst h1; subst h2; subst h3; rfl

theorem set_bottom_eq {mem : Mem} (hi : GInv I mem) {k : Key} (h : lookupSt k mem.sts = .invalid) :
    mem.s.set k (BitInfo.undefined k.w) = mem.s := State.ext_at (set_bottom hi h)

theorem get_ok (hP : Plain I.G) (hc : Closed I) : ∀ fuel, GetOk I (I.get fuel)
  | 0 => fun _ _ _ _ _ h => by cases h
  | fuel + 1 => by
    intro k hk mem mem' hi h
    unfold IrGraph.get at h
    split at h
    · next hl =>
      rw [set_bottom_eq hi hl] at h
      obtain ⟨i1, a1, h1⟩ := calcInfo_ok hP (get_ok hP hc fuel) hk (hc k hk) _ _ _ hi (by rw [hl]; decide) h
      exact ⟨i1, a1, Or.inl h1⟩
    · next hl =>
      obtain ⟨i1, a1, h1⟩ := calcInfo_ok hP (get_ok hP hc fuel) hk (hc k hk) _ _ _ hi (by rw [hl]; decide) h
      exact ⟨i1, a1, Or.inl h1⟩
    · next hl => cases h; exact ⟨hi, Adv.refl _, Or.inr hl⟩
    · next hl => cases h; exact ⟨hi, Adv.refl _, Or.inl hl⟩

/-! ## Termination -/

/-- the number of changes that are still possible -/
def left (I : IrGraph) (s : State) : Nat := (I.nodes.map fun k => 2 * k.w).sum - total I.nodes s

/-- the number of nodes that are not in flight -/
def idle (I : IrGraph) (mem : Mem) : Nat := I.nodes.countP fun k => decide (lookupSt k mem.sts ≠ .inFlight)

theorem left_le {mem mem' : Mem} (h : Adv I mem mem') : left I mem'.s ≤ left I mem.s := by
  unfold left
  have := total_mono I.nodes h.le
  omega

theorem idle_eq {mem mem' : Mem} (h : Adv I mem mem') : idle I mem' = idle I mem := by
  unfold idle
  congr 1
  funext k
  rw [decide_eq_decide]
  exact not_congr (h.fly k)

theorem left_lt {s t : State} (h : s.Le t) {k : Key} (hk : k ∈ I.nodes) (hne : t.at k ≠ s.at k) : left I t < left I s := by
  have h1 := total_lt h hk hne
  have h2 := total_le I.nodes t
  unfold left
  omega

theorem same_of_left {mem mem' : Mem} (h : Adv I mem mem') (hl : ¬ left I mem'.s < left I mem.s) : ∀ j, mem'.s.at j = mem.s.at j := by
  intro j
  by_cases hj : j ∈ I.nodes
  · by_contra hne
    exact hl (left_lt h.le hj hne)
  · exact h.out j hj

section
variable {get : Key → Mem → Option Mem} {N R : Nat}

/-- a call returns if not too many nodes are idle and not too many changes are left -/
def GetSome (I : IrGraph) (get : Key → Mem → Option Mem) (N R : Nat) : Prop :=
  ∀ k ∈ I.nodes, ∀ mem, GInv I mem → idle I mem ≤ N → left I mem.s ≤ R → ∃ mem', get k mem = some mem'

theorem blockLoop_some (hg : GetOk I get) (hs : GetSome I get N R) : ∀ (xs : List Nat) (r : Bool) (mem : Mem), (∀ x ∈ xs, Key.x x ∈ I.nodes) → GInv I mem →
    idle I mem ≤ N → left I mem.s ≤ R → ∃ p, blockLoop get xs r mem = some p
  | [], r, mem, _, _, _, _ => ⟨_, rfl⟩
  | x :: xs, r, mem, hm, hi, hn, hr => by
    obtain ⟨m1, h1⟩ := hs _ (hm x List.mem_cons_self) mem hi hn hr
    obtain ⟨i1, a1, -⟩ := hg _ (hm x List.mem_cons_self) _ _ hi h1
    unfold blockLoop
    rw [h1]
    exact blockLoop_some hg hs xs _ m1 (fun y hy => hm y (List.mem_cons_of_mem _ hy)) i1 (idle_eq a1 ▸ hn) (Nat.le_trans (left_le a1) hr)

theorem phiLoop_some (hg : GetOk I get) (hs : GetSome I get N R) (m : IMode) : ∀ (l : List (Nat × Nat)) (acc : BitInfo m.bits) (mem : Mem),
    (∀ p ∈ l, Key.x p.1 ∈ I.nodes ∧ Key.data m p.2 ∈ I.nodes) → GInv I mem → idle I mem ≤ N → left I mem.s ≤ R → ∃ p, phiLoop get m l acc mem = some p
  | [], acc, mem, _, _, _, _ => ⟨_, rfl⟩
  | (x, a) :: l, acc, mem, hm, hi, hn, hr => by
    obtain ⟨m1, h1⟩ := hs _ (hm _ List.mem_cons_self).1 mem hi hn hr
    obtain ⟨i1, a1, -⟩ := hg _ (hm _ List.mem_cons_self).1 _ _ hi h1
    have hn1 : idle I m1 ≤ N := idle_eq a1 ▸ hn
    have hr1 := Nat.le_trans (left_le a1) hr
    unfold phiLoop
    rw [h1]
    simp only [Option.bind_some]
    split
    · obtain ⟨m2, h2⟩ := hs _ (hm _ List.mem_cons_self).2 m1 i1 hn1 hr1
      obtain ⟨i2, a2, -⟩ := hg _ (hm _ List.mem_cons_self).2 _ _ i1 h2
      rw [h2]
      exact phiLoop_some hg hs m l _ m2 (fun p hp => hm p (List.mem_cons_of_mem _ hp)) i2 (idle_eq a2 ▸ hn1) (Nat.le_trans (left_le a2) hr1)
    · exact phiLoop_some hg hs m l _ m1 (fun p hp => hm p (List.mem_cons_of_mem _ hp)) i1 hn1 hr1

theorem phiCheck_some (hg : GetOk I get) (hs : GetSome I get N R) (m : IMode) : ∀ (l : List (Nat × Nat)) (mem : Mem),
    (∀ p ∈ l, Key.x p.1 ∈ I.nodes ∧ Key.data m p.2 ∈ I.nodes) → GInv I mem → idle I mem ≤ N → left I mem.s ≤ R → ∃ p, phiCheck get m l mem = some p
  | [], mem, _, _, _, _ => ⟨_, rfl⟩
  | (x, a) :: l, mem, hm, hi, hn, hr => by
    obtain ⟨m1, h1⟩ := hs _ (hm _ List.mem_cons_self).1 mem hi hn hr
    obtain ⟨i1, a1, -⟩ := hg _ (hm _ List.mem_cons_self).1 _ _ hi h1
    unfold phiCheck
    rw [h1]
    simp only [Option.bind_some]
    split
    · exact ⟨_, rfl⟩
    · exact phiCheck_some hg hs m l m1 (fun p hp => hm p (List.mem_cons_of_mem _ hp)) i1 (idle_eq a1 ▸ hn) (Nat.le_trans (left_le a1) hr)

theorem transferPhiA_some (hg : GetOk I get) (hs : GetSome I get N R) (m : IMode) (l : List (Nat × Nat))
    (hm : ∀ p ∈ l, Key.x p.1 ∈ I.nodes ∧ Key.data m p.2 ∈ I.nodes) : ∀ (fuel : Nat) (mem : Mem), GInv I mem → idle I mem ≤ N → left I mem.s ≤ R →
      left I mem.s < fuel → ∃ p, transferPhiA get m l fuel mem = some p
  | 0, _, _, _, _, h => absurd h (Nat.not_lt_zero _)
  | fuel + 1, mem, hi, hn, hr, hf => by
    obtain ⟨⟨m1, v⟩, h1⟩ := phiLoop_some hg hs m l (BitInfo.undefined m.bits) mem hm hi hn hr
    obtain ⟨i1, a1, -, -, -, st⟩ := phiLoop_ok hg m l _ _ _ _ hm hi (Or.inl rfl) h1
    have hn1 : idle I m1 ≤ N := idle_eq a1 ▸ hn
    have hr1 := Nat.le_trans (left_le a1) hr
    obtain ⟨⟨m2, r⟩, h2⟩ := phiCheck_some hg hs m l m1 hm i1 hn1 hr1
    obtain ⟨i2, a2, hno⟩ := phiCheck_ok hg m l _ _ _ hm i1 h2
    unfold transferPhiA
    rw [h1]
    simp only [Option.bind_some]
    rw [h2]
    simp only [Option.bind_some]
    split
    · next hrt =>
      refine transferPhiA_some hg hs m l hm fuel m2 i2 (idle_eq a2 ▸ hn1) (Nat.le_trans (left_le a2) hr1) ?_
      by_contra hlt
      have a12 := a1.trans a2
      have e2 : ∀ j, m2.s.at j = mem.s.at j := same_of_left a12 (by omega)
      have e1 : ∀ j, m1.s.at j = mem.s.at j := fun j => le_antisymm (e2 j ▸ a2.le j) (a1.le j)
      have e1x : ∀ x, m1.s.x x = mem.s.x x := fun x => e1 (.x x)
      exact hno hrt (fun j => (e2 j).trans (e1 j).symm) fun p hp hpz => st e1 p hp (by rw [← e1x]; exact hpz)
    · exact ⟨_, rfl⟩

theorem anyUndefined_some (hg : GetOk I get) (hs : GetSome I get N R) : ∀ (ks : List Key) (mem : Mem), (∀ k ∈ ks, k ∈ I.nodes) → GInv I mem →
    idle I mem ≤ N → left I mem.s ≤ R → ∃ p, anyUndefined get ks mem = some p
  | [], mem, _, _, _, _ => ⟨_, rfl⟩
  | k :: ks, mem, hm, hi, hn, hr => by
    obtain ⟨m1, h1⟩ := hs _ (hm k List.mem_cons_self) mem hi hn hr
    obtain ⟨i1, a1, -⟩ := hg _ (hm k List.mem_cons_self) _ _ hi h1
    unfold anyUndefined
    rw [h1]
    simp only [Option.bind_some]
    split
    · exact ⟨_, rfl⟩
    · exact anyUndefined_some hg hs ks m1 (fun y hy => hm y (List.mem_cons_of_mem _ hy)) i1 (idle_eq a1 ▸ hn) (Nat.le_trans (left_le a1) hr)

theorem getAll_some (hg : GetOk I get) (hs : GetSome I get N R) : ∀ (ks : List Key) (mem : Mem), (∀ k ∈ ks, k ∈ I.nodes) → GInv I mem →
    idle I mem ≤ N → left I mem.s ≤ R → ∃ p, getAll get ks mem = some p
  | [], mem, _, _, _, _ => ⟨_, rfl⟩
  | k :: ks, mem, hm, hi, hn, hr => by
    obtain ⟨m1, h1⟩ := hs _ (hm k List.mem_cons_self) mem hi hn hr
    obtain ⟨i1, a1, -⟩ := hg _ (hm k List.mem_cons_self) _ _ hi h1
    unfold getAll
    rw [h1]
    exact getAll_some hg hs ks m1 (fun y hy => hm y (List.mem_cons_of_mem _ hy)) i1 (idle_eq a1 ▸ hn) (Nat.le_trans (left_le a1) hr)

theorem transferA_some (hg : GetOk I get) (hs : GetSome I get N R) {tfuel : Nat} {k : Key} (hd : ∀ j ∈ I.deps k, j ∈ I.nodes)
    {mem : Mem} (hi : GInv I mem) (hn : idle I mem ≤ N) (hr : left I mem.s ≤ R) (hf : left I mem.s < tfuel) : ∃ p, transferA I get tfuel mem k = some p := by
  cases k with
  | block b =>
    simp only [transferA, transferBlockA]
    obtain ⟨p, h⟩ := blockLoop_some hg hs (I.G.preds b) false mem (fun x hx => hd _ (List.mem_map_of_mem hx)) hi hn hr
    rw [h]
    exact ⟨_, rfl⟩
  | x x =>
    have hb : Key.block (I.G.xblock x) ∈ I.nodes := hd _ (by simp [IrGraph.deps])
    obtain ⟨m1, h1⟩ := hs _ hb mem hi hn hr
    obtain ⟨i1, a1, -⟩ := hg _ hb _ _ hi h1
    simp only [transferA, transferXA]
    rw [h1]
    simp only [Option.bind_some]
    split
    · exact ⟨_, rfl⟩
    · split
      · exact ⟨_, rfl⟩
      · next sel num hx =>
        obtain ⟨m2, h2⟩ := hs _ (hd (.data bmode sel) (by simp [IrGraph.deps, hx])) m1 i1 (idle_eq a1 ▸ hn) (Nat.le_trans (left_le a1) hr)
        rw [h2]
        exact ⟨_, rfl⟩
      · next k sel hx =>
        obtain ⟨m2, h2⟩ := hs _ (hd (.data k sel) (by simp [IrGraph.deps, hx])) m1 i1 (idle_eq a1 ▸ hn) (Nat.le_trans (left_le a1) hr)
        rw [h2]
        exact ⟨_, rfl⟩
      · exact ⟨_, rfl⟩
      · exact ⟨_, rfl⟩
  | data m n =>
    simp only [transferA, transferDataA]
    split
    · next args hn' => exact transferPhiA_some hg hs m _ (phi_pairs hn' hd) tfuel mem hi hn hr hf
    · next e hn' =>
      have hl : ∀ k ∈ leaves e, k ∈ I.nodes := by simpa only [IrGraph.deps, hn'] using hd
      obtain ⟨⟨m1, r⟩, h1⟩ := anyUndefined_some hg hs (leaves e) mem hl hi hn hr
      obtain ⟨i1, a1, -⟩ := anyUndefined_ok hg _ _ _ _ hl hi h1
      rw [h1]
      simp only [Option.bind_some]
      split
      · exact ⟨_, rfl⟩
      · obtain ⟨m2, h2⟩ := getAll_some hg hs (leaves e) m1 hl i1 (idle_eq a1 ▸ hn) (Nat.le_trans (left_le a1) hr)
        rw [h2]
        exact ⟨_, rfl⟩
    · exact ⟨_, rfl⟩

theorem idle_inFlight {mem : Mem} {k : Key} (hk : k ∈ I.nodes) (hk0 : lookupSt k mem.sts ≠ .inFlight) :
    idle I { mem with sts := setSt k .inFlight mem.sts } < idle I mem := by
  have himp : ∀ j ∈ I.nodes, decide (lookupSt j (setSt k .inFlight mem.sts) ≠ .inFlight) = true → decide (lookupSt j mem.sts ≠ .inFlight) = true := by
    intro j _ hj
    by_cases hjk : j = k
    · subst hjk; simp [lookup_set_self] at hj
    · rw [lookup_set_ne hjk] at hj; exact hj
  have hle : idle I { mem with sts := setSt k .inFlight mem.sts } ≤ idle I mem := List.countP_mono_left himp
  rcases Nat.lt_or_ge (idle I { mem with sts := setSt k .inFlight mem.sts }) (idle I mem) with h | h
  · exact h
  · have := countP_eq_of_imp I.nodes himp h k hk
    simp [lookup_set_self, hk0] at this

theorem calcInfo_some (hP : Plain I.G) (hg : GetOk I get) (hs : GetSome I get N R) {tfuel : Nat} {k : Key} (hk : k ∈ I.nodes) (hd : ∀ j ∈ I.deps k, j ∈ I.nodes) :
    ∀ (fuel : Nat) (mem : Mem), GInv I mem → lookupSt k mem.sts ≠ .inFlight → idle I mem ≤ N + 1 → left I mem.s ≤ R → left I mem.s < tfuel →
      left I mem.s < fuel → ∃ p, calcInfo I get tfuel fuel k mem = some p
  | 0, _, _, _, _, _, _, h => absurd h (Nat.not_lt_zero _)
  | fuel + 1, mem, hi, hk0, hn, hr, ht, hf => by
    have i0 := inFlight_inv hi k
    have hn0 := idle_inFlight hk hk0
    obtain ⟨⟨m1, v⟩, h1⟩ := transferA_some hg hs (tfuel := tfuel) hd i0 (by omega) hr ht
    unfold calcInfo
    rw [h1]
    dsimp only [Option.bind_some]
    split
    · exact ⟨_, rfl⟩
    · next hv =>
      split
      · exact ⟨_, rfl⟩
      · next hl =>
        have hto := transferA_ok hP hg hd i0 h1
        have hkv : m1.s.at k = mem.s.at k := hto.adv.flyval k (lookup_set_self _ _ _)
        obtain ⟨i2, a2⟩ := calc_step hP hg hk hd hi hk0 h1 hv
        have hlt : left I (m1.s.set k v) < left I mem.s := left_lt a2.le hk (by simp only [at_set_self]; rw [← hkv]; exact hv)
        have hn2 := idle_eq a2
        refine calcInfo_some hP hg hs hk hd fuel _ i2 (fun hh => hk0 ((a2.fly k).1 hh)) (by omega) ?_ ?_ ?_
        · exact Nat.le_trans (Nat.le_of_lt hlt) hr
        · exact Nat.lt_trans hlt ht
        · show left I (m1.s.set k v) < fuel
          omega

end

theorem get_some (hP : Plain I.G) (hc : Closed I) : ∀ (fuel N R : Nat), N + R < fuel → GetSome I (I.get fuel) N R
  | 0, _, _, h => absurd h (Nat.not_lt_zero _)
  | fuel + 1, N, R, h => by
    intro k hk mem hi hn hr
    have hpos : lookupSt k mem.sts ≠ .inFlight → 0 < idle I mem := fun h => List.countP_pos_iff.2 ⟨k, hk, by simp [h]⟩
    unfold IrGraph.get
    split
    · next hl =>
      have hne : lookupSt k mem.sts ≠ .inFlight := by rw [hl]; decide
      have := hpos hne
      rw [set_bottom_eq hi hl]
      exact calcInfo_some hP (get_ok hP hc fuel) (get_some hP hc fuel (N - 1) R (by omega)) hk (hc k hk) fuel _ hi hne (by show idle I mem ≤ _; omega) hr
        (by show left I mem.s < _; omega) (by show left I mem.s < _; omega)
    · next hl =>
      have hne : lookupSt k mem.sts ≠ .inFlight := by rw [hl]; decide
      have := hpos hne
      exact calcInfo_some hP (get_ok hP hc fuel) (get_some hP hc fuel (N - 1) R (by omega)) hk (hc k hk) fuel _ hi hne (by omega) hr (by omega) (by omega)
    · exact ⟨_, rfl⟩
    · exact ⟨_, rfl⟩

/-! ## The whole analysis -/

theorem start_inv : GInv I ⟨[], State.bottom⟩ := by
  have hb : ∀ k : Key, State.bottom.at k = BitInfo.undefined k.w := by intro k; cases k <;> rfl
  refine ⟨fun k => ?_, fun k => ?_, fun k _ => hb k, fun f _ k => ?_⟩
  · simp only [hb]; exact Or.inl rfl
  · simp only [hb]; exact undefined_le _
  · simp only [hb]; exact undefined_le _

theorem analyzeAll_ok (hP : Plain I.G) (hc : Closed I) {fuel : Nat} : ∀ (ks : List Key) (mem mem' : Mem), (∀ k ∈ ks, k ∈ I.nodes) → GInv I mem →
    I.analyzeAll fuel ks mem = some mem' → GInv I mem' ∧ Adv I mem mem'
  | [], mem, mem', _, hi, h => by
    simp only [IrGraph.analyzeAll, Option.some.injEq] at h
    subst h
    exact ⟨hi, Adv.refl _⟩
  | k :: ks, mem, mem', hm, hi, h => by
    unfold IrGraph.analyzeAll at h
    obtain ⟨m1, h1, h⟩ := bind_some h
    obtain ⟨i1, a1, -⟩ := get_ok hP hc fuel _ (hm _ List.mem_cons_self) _ _ hi h1
    obtain ⟨i2, a2⟩ := analyzeAll_ok hP hc ks _ _ (fun k hk => hm k (List.mem_cons_of_mem _ hk)) i1 h
    exact ⟨i2, a1.trans a2⟩

theorem analyzeAll_some (hP : Plain I.G) (hc : Closed I) {fuel : Nat} : ∀ (ks : List Key) (mem : Mem), (∀ k ∈ ks, k ∈ I.nodes) → GInv I mem →
    idle I mem + left I mem.s < fuel → ∃ mem', I.analyzeAll fuel ks mem = some mem'
  | [], mem, _, _, _ => ⟨_, rfl⟩
  | k :: ks, mem, hm, hi, hf => by
    obtain ⟨m1, h1⟩ := get_some hP hc fuel _ _ hf k (hm k List.mem_cons_self) mem hi (Nat.le_refl _) (Nat.le_refl _)
    obtain ⟨i1, a1, -⟩ := get_ok hP hc fuel _ (hm _ List.mem_cons_self) _ _ hi h1
    unfold IrGraph.analyzeAll
    rw [h1]
    refine analyzeAll_some hP hc ks m1 (fun k hk => hm k (List.mem_cons_of_mem _ hk)) i1 ?_
    have := idle_eq a1
    have := left_le a1
    omega

theorem walk_nodes (hw : WellFormed I) : ∀ (fuel : Nat) (p : List Key × List Key) (k : Key), k ∈ I.nodes → (∀ j ∈ p.2, j ∈ I.nodes) →
    ∀ j ∈ (I.walk fuel p k).2, j ∈ I.nodes
  | 0, p, _, _, hp => hp
  | fuel + 1, p, k, hk, hp => by
    have hfold : ∀ (l : List Key) (p : List Key × List Key), (∀ j ∈ l, j ∈ I.nodes) → (∀ j ∈ p.2, j ∈ I.nodes) → ∀ j ∈ (l.foldl (I.walk fuel) p).2, j ∈ I.nodes := by
      intro l
      induction l with
      | nil => exact fun p _ hp => hp
      | cons a l ih => exact fun p hl hp => ih _ (fun j hj => hl j (List.mem_cons_of_mem _ hj)) (walk_nodes hw fuel p a (hl a List.mem_cons_self) hp)
    unfold IrGraph.walk
    split
    · exact hp
    · dsimp only
      intro j hj
      rcases List.mem_cons.1 hj with rfl | hj
      · exact hk
      · refine hfold _ _ (fun i hi => hw.ins k hk i (List.mem_reverse.1 hi)) ?_ j hj
        split
        · next b hb => exact walk_nodes hw fuel _ _ (hw.block k hk b hb) hp
        · exact hp

theorem order_nodes (hw : WellFormed I) : ∀ k ∈ I.order, k ∈ I.nodes := by
  intro k hk
  exact walk_nodes hw _ _ _ hw.root (by simp) k (List.mem_reverse.1 hk)

end Verif.Model.ConstBits
