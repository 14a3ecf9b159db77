import Verif.Model.TailRec
/-! # Lemmas about the elimination of tail recursion -/
namespace Verif.Lemmas.TailRec
open Verif.Spec.TailRec Verif.Model.TailRec

variable {w : Nat} {oth : Nat → BitVec w → BitVec w → BitVec w}

theorem eval_indep {α : Type} {O : Ops α} {env : Nat → α} : ∀ {e : Expr}, e.uses = 0 → ∀ r r', e.eval O env r = e.eval O env r' := by
  intro e
  induction e with
  | call => intro h; simp [Expr.uses] at h
  | leaf i v => intro _ r r'; rfl
  | add i a b iha ihb =>
    intro h r r'
    simp only [Expr.uses] at h
    simp only [Expr.eval]
    rw [iha (by omega) r r', ihb (by omega) r r']
  | sub i a b iha ihb =>
    intro h r r'
    simp only [Expr.uses] at h
    simp only [Expr.eval]
    rw [iha (by omega) r r', ihb (by omega) r r']
  | mul i a b iha ihb =>
    intro h r r'
    simp only [Expr.uses] at h
    simp only [Expr.eval]
    rw [iha (by omega) r r', ihb (by omega) r r']
  | neg i a iha =>
    intro h r r'
    simp only [Expr.uses] at h
    simp only [Expr.eval]
    rw [iha (by omega) r r']
  | other i n a b iha ihb =>
    intro h r r'
    simp only [Expr.uses] at h
    simp only [Expr.eval]
    rw [iha (by omega) r r', ihb (by omega) r r']

/-- no variant without the call -/
def None (v : Variant) : Prop := v = .bad ∨ v = .unknown

theorem join_unknown_left (v : Variant) : join .unknown v = v := by cases v <;> decide
theorem join_unknown_right (v : Variant) : join v .unknown = v := by cases v <;> decide

/-- the variant of an operand -/
def opVariant (e : Expr) : Variant := if !e.inBlock then .unknown else findVariant e

theorem fv_add {i : Bool} {a b : Expr} : findVariant (.add i a b) =
    if opVariant a = .bad then .bad else if opVariant b = .bad then .bad
    else if join (opVariant a) (opVariant b) = .direct ∨ join (opVariant a) (opVariant b) = .add then .add else .bad := rfl
theorem fv_mul {i : Bool} {a b : Expr} : findVariant (.mul i a b) =
    if opVariant a = .bad then .bad else if opVariant b = .bad then .bad
    else if join (opVariant a) (opVariant b) = .direct ∨ join (opVariant a) (opVariant b) = .mul then .mul else .bad := rfl
theorem fv_sub {i : Bool} {a b : Expr} : findVariant (.sub i a b) =
    if opVariant a = .bad then .bad else if b.inBlock && findVariant b ≠ .unknown then .bad
    else if opVariant a = .direct ∨ opVariant a = .add then opVariant a else .bad := rfl
theorem fv_neg {i : Bool} {a : Expr} : findVariant (.neg i a) =
    if findVariant a = .direct then .mul else if findVariant a = .mul ∨ findVariant a = .unknown then findVariant a else .bad := rfl

theorem none_of_unused : ∀ {e : Expr}, e.uses = 0 → None (findVariant e) := by
  have hop : ∀ {e : Expr}, None (findVariant e) → None (opVariant e) := by
    intro e h
    unfold opVariant
    by_cases hb : (!e.inBlock) = true
    · rw [if_pos hb]; exact .inr rfl
    · rw [if_neg hb]; exact h
  intro e
  induction e with
  | call => intro h; simp [Expr.uses] at h
  | leaf i v => intro _; exact .inr rfl
  | add i a b iha ihb =>
    intro h
    simp only [Expr.uses] at h
    rw [fv_add]
    rcases hop (iha (by omega)) with h1 | h1 <;> rcases hop (ihb (by omega)) with h2 | h2 <;> rw [h1, h2] <;> simp [join, None]
  | sub i a b iha ihb =>
    intro h
    simp only [Expr.uses] at h
    rw [fv_sub]
    rcases hop (iha (by omega)) with h1 | h1 <;> rw [h1] <;> simp [None]
  | mul i a b iha ihb =>
    intro h
    simp only [Expr.uses] at h
    rw [fv_mul]
    rcases hop (iha (by omega)) with h1 | h1 <;> rcases hop (ihb (by omega)) with h2 | h2 <;> rw [h1, h2] <;> simp [join, None]
  | neg i a iha =>
    intro h
    simp only [Expr.uses] at h
    rw [fv_neg]
    rcases iha h with h1 | h1 <;> rw [h1] <;> simp [None]
  | other i n a b _ _ => intro _; exact .inr rfl

theorem none_op {e : Expr} (h : e.uses = 0) : None (opVariant e) := by
  unfold opVariant
  by_cases hb : (!e.inBlock) = true
  · rw [if_pos hb]; exact .inr rfl
  · rw [if_neg hb]; exact none_of_unused h

theorem inBlock_of_uses {e : Expr} (hp : e.Placed) (h : e.uses = 1) : e.inBlock = true := by
  cases e with
  | call => rfl
  | leaf i v => simp [Expr.uses] at h
  | add i a b => cases i with | true => rfl | false => have := hp.1 rfl; omega
  | sub i a b => cases i with | true => rfl | false => have := hp.1 rfl; omega
  | mul i a b => cases i with | true => rfl | false => have := hp.1 rfl; omega
  | neg i a => cases i with | true => rfl | false => have := hp.1 rfl; omega
  | other i n a b => cases i with | true => rfl | false => have := hp.1 rfl; omega

theorem op_of_uses {e : Expr} (hp : e.Placed) (h : e.uses = 1) : opVariant e = findVariant e := by
  unfold opVariant
  rw [if_neg (by simp [inBlock_of_uses hp h])]

theorem bare_of_direct : ∀ {e : Expr}, findVariant e = .direct → e.Bare = true := by
  intro e
  induction e with
  | call => intro _; rfl
  | leaf i v => intro h; cases h
  | add i a b _ _ =>
    intro h
    rw [fv_add] at h
    split at h
    · cases h
    · split at h
      · cases h
      · split at h <;> cases h
  | sub i a b iha _ =>
    intro h
    rw [fv_sub] at h
    split at h
    · cases h
    · split at h
      · cases h
      · split at h
        · unfold opVariant at h
          split at h
          · cases h
          · exact iha h
        · cases h
  | mul i a b _ _ =>
    intro h
    rw [fv_mul] at h
    split at h
    · cases h
    · split at h
      · cases h
      · split at h <;> cases h
  | neg i a _ =>
    intro h
    rw [fv_neg] at h
    split at h
    · cases h
    · split at h
      · rename_i h1 h2
        rw [h] at h2
        rcases h2 with h2 | h2 <;> cases h2
      · cases h
  | other i n a b _ _ => intro h; cases h

theorem call_of_direct {e : Expr} (h : findVariant e = .direct) (hc : e.Clean = true) : e = .call := by
  have hb := bare_of_direct h
  cases e with
  | call => rfl
  | leaf i v => cases hb
  | add i a b => cases hb
  | sub i a b =>
    simp only [Expr.Bare] at hb
    simp [Expr.Clean, hb] at hc
  | mul i a b => cases hb
  | neg i a => cases hb
  | other i n a b => cases hb

/-- What the variants mean, if the result of the call is used once. -/
theorem variant_sound : ∀ {e : Expr}, e.uses = 1 → e.Placed → ∀ env : Nat → BitVec w,
    ((e.Bare = true ∨ e.Clean = true) → (findVariant e = .direct ∨ findVariant e = .add) →
      ∃ c, ∀ r, e.eval (intOps w oth) env r = r + c) ∧
    (e.Clean = true → findVariant e = .mul → ∃ c, ∀ r, e.eval (intOps w oth) env r = c * r) := by
  intro e
  induction e with
  | call =>
    intro _ _ env
    refine ⟨fun _ _ => ⟨0, fun r => by simp [Expr.eval]⟩, fun _ h => by cases h⟩
  | leaf i v => intro h; simp [Expr.uses] at h
  | other i n a b _ _ =>
    intro _ _ env
    exact ⟨(fun _ h => by rcases h with h | h <;> simp [findVariant] at h), (fun _ h => by simp [findVariant] at h)⟩
  | neg i a iha =>
    intro hu hp env
    simp only [Expr.uses] at hu
    refine ⟨fun _ h => ?_, fun hc h => ?_⟩
    · exfalso
      rw [fv_neg] at h
      revert h
      cases findVariant a <;> decide
    · simp only [Expr.Clean] at hc
      rw [fv_neg] at h
      by_cases h1 : findVariant a = .direct
      · rw [call_of_direct h1 hc]
        refine ⟨-1, fun r => ?_⟩
        simp [Expr.eval, intOps, BitVec.neg_mul]
      · rw [if_neg h1] at h
        have h2 : findVariant a = .mul := by
          revert h
          cases findVariant a <;> decide
        obtain ⟨c, hc'⟩ := (iha hu hp.2 env).2 hc h2
        refine ⟨-c, fun r => ?_⟩
        simp only [Expr.eval, hc']
        simp [intOps, BitVec.neg_mul]
  | add i a b iha ihb =>
    intro hu hp env
    simp only [Expr.uses] at hu
    refine ⟨fun hb h => ?_, fun _ h => ?_⟩
    · have hcl : (a.Bare = true ∨ a.Clean = true) ∧ (b.Bare = true ∨ b.Clean = true) := by
        rcases hb with hb | hb
        · cases hb
        · simpa [Expr.Clean] using hb
      rw [fv_add] at h
      rcases Nat.eq_zero_or_pos b.uses with h0 | h0
      · have h1 : a.uses = 1 := by omega
        rw [op_of_uses hp.2.1 h1] at h
        have hb' := none_op h0
        have : findVariant a = .direct ∨ findVariant a = .add := by
          rcases hb' with h2 | h2 <;> rw [h2] at h <;> revert h <;> cases findVariant a <;> decide
        obtain ⟨c, hc⟩ := (iha h1 hp.2.1 env).1 hcl.1 this
        refine ⟨c + b.eval (intOps w oth) env 0, fun r => ?_⟩
        simp only [Expr.eval, hc, eval_indep h0 r 0]
        simp only [intOps, BitVec.add_assoc]
      · have h1 : b.uses = 1 := by omega
        have h0 : a.uses = 0 := by omega
        rw [op_of_uses hp.2.2 h1] at h
        have hb' := none_op h0
        have : findVariant b = .direct ∨ findVariant b = .add := by
          rcases hb' with h2 | h2 <;> rw [h2] at h <;> revert h <;> cases findVariant b <;> decide
        obtain ⟨c, hc⟩ := (ihb h1 hp.2.2 env).1 hcl.2 this
        refine ⟨c + a.eval (intOps w oth) env 0, fun r => ?_⟩
        simp only [Expr.eval, hc, eval_indep h0 r 0]
        simp only [intOps]
        rw [BitVec.add_comm, BitVec.add_assoc]
    · exfalso
      rw [fv_add] at h
      revert h
      split
      · intro h; cases h
      · split
        · intro h; cases h
        · split <;> intro h <;> cases h
  | sub i a b iha ihb =>
    intro hu hp env
    simp only [Expr.uses] at hu
    rw [fv_sub]
    have hopd : opVariant a = .direct ∨ opVariant a = .add → a.uses = 1 := by
      intro h
      rcases Nat.eq_zero_or_pos a.uses with h0 | h0
      · rcases none_op h0 with h2 | h2 <;> rw [h2] at h <;> rcases h with h | h <;> cases h
      · omega
    refine ⟨fun hb h => ?_, fun _ h => ?_⟩
    · have hda : opVariant a = .direct ∨ opVariant a = .add := by
        revert h
        split
        · intro h; rcases h with h | h <;> cases h
        · split
          · intro h; rcases h with h | h <;> cases h
          · split
            · exact id
            · intro h; rcases h with h | h <;> cases h
      have h1 := hopd hda
      have h0 : b.uses = 0 := by omega
      rw [op_of_uses hp.2.1 h1] at hda
      have hcl : a.Bare = true ∨ a.Clean = true := by
        rcases hb with hb | hb
        · exact .inl hb
        · simp [Expr.Clean] at hb
          exact .inr hb.1.2
      obtain ⟨c, hc⟩ := (iha h1 hp.2.1 env).1 hcl hda
      refine ⟨c - b.eval (intOps w oth) env 0, fun r => ?_⟩
      simp only [Expr.eval, hc, eval_indep h0 r 0]
      simp only [intOps, BitVec.sub_eq_add_neg, BitVec.add_assoc]
    · exfalso
      revert h
      split
      · intro h; cases h
      · split
        · intro h; cases h
        · split
          · rename_i h
            intro h'
            rw [h'] at h
            rcases h with h | h <;> cases h
          · intro h; cases h
  | mul i a b iha ihb =>
    intro hu hp env
    simp only [Expr.uses] at hu
    rw [fv_mul]
    refine ⟨fun _ h => ?_, fun hcl h => ?_⟩
    · exfalso
      revert h
      split
      · intro h; rcases h with h | h <;> cases h
      · split
        · intro h; rcases h with h | h <;> cases h
        · split <;> intro h <;> rcases h with h | h <;> cases h
    · simp only [Expr.Clean, Bool.and_eq_true] at hcl
      rcases Nat.eq_zero_or_pos b.uses with h0 | h0
      · have h1 : a.uses = 1 := by omega
        rw [op_of_uses hp.2.1 h1] at h
        have hb' := none_op h0
        have : findVariant a = .direct ∨ findVariant a = .mul := by
          rcases hb' with h2 | h2 <;> rw [h2] at h <;> revert h <;> cases findVariant a <;> decide
        rcases this with h2 | h2
        · rw [call_of_direct h2 hcl.1]
          refine ⟨b.eval (intOps w oth) env 0, fun r => ?_⟩
          simp only [Expr.eval, eval_indep h0 r 0]
          simp only [intOps, BitVec.mul_comm]
        · obtain ⟨c, hc⟩ := (iha h1 hp.2.1 env).2 hcl.1 h2
          refine ⟨b.eval (intOps w oth) env 0 * c, fun r => ?_⟩
          simp only [Expr.eval, hc, eval_indep h0 r 0]
          simp only [intOps]
          rw [BitVec.mul_comm, BitVec.mul_assoc]
      · have h1 : b.uses = 1 := by omega
        have h0 : a.uses = 0 := by omega
        rw [op_of_uses hp.2.2 h1] at h
        have hb' := none_op h0
        have : findVariant b = .direct ∨ findVariant b = .mul := by
          rcases hb' with h2 | h2 <;> rw [h2] at h <;> revert h <;> cases findVariant b <;> decide
        rcases this with h2 | h2
        · rw [call_of_direct h2 hcl.2]
          refine ⟨a.eval (intOps w oth) env 0, fun r => ?_⟩
          simp only [Expr.eval, eval_indep h0 r 0]
          simp only [intOps]
        · obtain ⟨c, hc⟩ := (ihb h1 hp.2.2 env).2 hcl.2 h2
          refine ⟨a.eval (intOps w oth) env 0 * c, fun r => ?_⟩
          simp only [Expr.eval, hc, eval_indep h0 r 0]
          simp only [intOps]
          rw [BitVec.mul_assoc]

/-! ### The Returns -/

/-- the variants of the values of a Return agree with those of the function -/
def Fits {n : Nat} (es : Fin n → Expr) (vs : Fin n → Variant) (j : Fin n) : Prop :=
  findVariant (es j) ≠ .bad ∧ findVariant (es j) ≠ .unknown ∧ (findVariant (es j) = .direct ∨ findVariant (es j) = vs j)

/-- only direct variants change -/
def Le {n : Nat} (vs vs' : Fin n → Variant) : Prop := ∀ j, vs j ≠ .direct → vs' j = vs j

theorem Fits.mono {n : Nat} {es : Fin n → Expr} {vs vs' : Fin n → Variant} {j : Fin n} (h : Fits es vs j) (hl : Le vs vs') :
    Fits es vs' j := by
  refine ⟨h.1, h.2.1, ?_⟩
  rcases h.2.2 with h' | h'
  · exact .inl h'
  · by_cases hd : findVariant (es j) = .direct
    · exact .inl hd
    · right
      rw [h'] at hd
      rw [hl j hd, h']

theorem checkValues_ok {n : Nat} {es : Fin n → Expr} : ∀ (js : List (Fin n)) (vs : Fin n → Variant),
    (∀ j, ¬None (vs j)) →
    Le vs (checkValues es js vs).1 ∧ (∀ j, ¬None ((checkValues es js vs).1 j)) ∧
      ((checkValues es js vs).2 = true → ∀ j ∈ js, Fits es (checkValues es js vs).1 j) := by
  intro js
  induction js with
  | nil => intro vs hv; exact ⟨fun j _ => rfl, hv, (fun _ j h => nomatch h)⟩
  | cons j js ih =>
    intro vs hv
    unfold checkValues
    dsimp only
    by_cases h1 : findVariant (es j) = .bad ∨ findVariant (es j) = .unknown
    · rw [if_pos h1]
      exact ⟨fun j _ => rfl, hv, (fun h => nomatch h)⟩
    · rw [if_neg h1]
      generalize hvs' : (if findVariant (es j) ≠ .direct ∧ vs j = .direct then fun k => if k = j then findVariant (es j) else vs k else vs) = vs'
      have hle : Le vs vs' := by
        intro k hk
        subst hvs'
        by_cases h2 : findVariant (es j) ≠ .direct ∧ vs j = .direct
        · rw [if_pos h2]
          by_cases hkj : k = j
          · rw [hkj] at hk; exact absurd h2.2 hk
          · rw [if_neg hkj]
        · rw [if_neg h2]
      have hv' : ∀ k, ¬None (vs' k) := by
        intro k
        subst hvs'
        by_cases h2 : findVariant (es j) ≠ .direct ∧ vs j = .direct
        · rw [if_pos h2]
          by_cases hkj : k = j
          · rw [if_pos hkj]; exact h1
          · rw [if_neg hkj]; exact hv k
        · rw [if_neg h2]; exact hv k
      by_cases h3 : vs' j ≠ if findVariant (es j) = .direct then vs j else findVariant (es j)
      · rw [if_pos h3]
        exact ⟨hle, hv', (fun h => nomatch h)⟩
      · rw [if_neg h3]
        have h3 := Classical.byContradiction h3
        obtain ⟨a1, a2, a3⟩ := ih vs' hv'
        refine ⟨fun k hk => by rw [a1 k (by rw [hle k hk]; exact hk), hle k hk], a2, fun hok k hk => ?_⟩
        rcases List.mem_cons.mp hk with rfl | hk
        · refine Fits.mono (vs := vs') ⟨fun h => h1 (.inl h), fun h => h1 (.inr h), ?_⟩ a1
          by_cases hd : findVariant (es k) = .direct
          · exact .inl hd
          · rw [if_neg hd] at h3
            exact .inr h3.symm
        · exact a3 hok k hk

theorem possibilities_ok {n : Nat} {exprs : Nat → Fin n → Expr} : ∀ (is : List Nat) (vs : Fin n → Variant) (acc : List Nat),
    (∀ j, ¬None (vs j)) → (∀ i ∈ acc, ∀ j, Fits (exprs i) vs j) →
    (∀ j, ¬None ((possibilities exprs is vs acc).1 j)) ∧
      ∀ i ∈ (possibilities exprs is vs acc).2, ∀ j, Fits (exprs i) (possibilities exprs is vs acc).1 j := by
  intro is
  induction is with
  | nil => intro vs acc h1 h2; exact ⟨h1, h2⟩
  | cons i is ih =>
    intro vs acc h1 h2
    unfold possibilities
    obtain ⟨a1, a2, a3⟩ := checkValues_ok (es := exprs i) (List.finRange n).reverse vs h1
    generalize hc : checkValues (exprs i) (List.finRange n).reverse vs = p at a1 a2 a3
    obtain ⟨vs', ok⟩ := p
    dsimp only at a1 a2 a3 ⊢
    refine ih vs' _ a2 ?_
    intro k hk j
    cases ok with
    | false => exact (h2 k hk j).mono a1
    | true =>
      rcases List.mem_cons.mp hk with rfl | hk
      · exact a3 rfl j (by simp)
      · exact (h2 k hk j).mono a1

/-! ### The loop -/

section
variable {P M : Type} {n : Nat} {f : Func (BitVec w) P M n} {vs : Fin n → Variant} {good : List Nat}

theorem finish_neutral (rs : Fin n → BitVec w) : finish (intOps w oth) vs (neutral (intOps w oth) vs) rs = rs := by
  funext j
  unfold finish neutral
  cases vs j <;> simp [intOps]

theorem finish_assign {es : Fin n → Expr} (hf : ∀ j, Fits es vs j) (hv : ∀ j, ¬None (vs j))
    (hg : ∀ j, (es j).uses = 1 ∧ (es j).Placed ∧ (es j).Clean = true) (env : Nat → BitVec w) (acc rs : Fin n → BitVec w) :
    finish (intOps w oth) vs (assign (intOps w oth) vs es env acc) rs =
      finish (intOps w oth) vs acc fun j => (es j).eval (intOps w oth) env (rs j) := by
  funext j
  obtain ⟨-, -, h⟩ := hf j
  obtain ⟨hu, hp, hc⟩ := hg j
  have hs := variant_sound (oth := oth) hu hp env
  unfold finish assign
  cases hvj : vs j with
  | bad => exact absurd (.inl hvj) (hv j)
  | unknown => exact absurd (.inr hvj) (hv j)
  | direct =>
    rw [hvj] at h
    have : findVariant (es j) = .direct := by rcases h with h | h <;> exact h
    have he := call_of_direct this hc
    simp [he, Expr.eval]
  | add =>
    rw [hvj] at h
    obtain ⟨c, hc'⟩ := hs.1 (.inr hc) h
    simp only [hc']
    simp only [intOps, reduceCtorEq, if_false]
    rw [BitVec.add_assoc, BitVec.add_comm c (acc j)]
  | mul =>
    rw [hvj] at h
    have : ∃ c, ∀ r, (es j).eval (intOps w oth) env r = c * r := by
      rcases h with h | h
      · rw [call_of_direct h hc]
        exact ⟨1, fun r => by simp [Expr.eval]⟩
      · exact hs.2 hc h
    obtain ⟨c, hc'⟩ := this
    simp only [hc']
    simp only [intOps, reduceCtorEq, if_false]
    rw [← BitVec.mul_assoc, BitVec.mul_comm c (acc j)]

theorem run_of_runT (hf : ∀ i ∈ good, ∀ j, Fits (f.exprs i) vs j) (hv : ∀ j, ¬None (vs j))
    (hg : ∀ i ∈ good, ∀ j, (f.exprs i j).uses = 1 ∧ (f.exprs i j).Placed ∧ (f.exprs i j).Clean = true)
    {acc : Fin n → BitVec w} {c : Code (BitVec w) P M n} {res : Fin n → BitVec w} {m : M}
    (h : RunT (intOps w oth) f vs good acc c res m) :
    ∃ rs, Run (intOps w oth) f c rs m ∧ res = finish (intOps w oth) vs acc rs := by
  induction h with
  | ret acc res m => exact ⟨res, .ret res m, rfl⟩
  | loop hi _ ih =>
    obtain ⟨rs, h1, h2⟩ := ih
    exact ⟨_, .tail h1, by rw [h2, finish_assign (hf _ hi) hv (hg _ hi)]⟩
  | call hi _ ih =>
    obtain ⟨rs, h1, h2⟩ := ih
    rw [finish_neutral] at h2
    subst h2
    exact ⟨_, .tail h1, rfl⟩
  | rcall _ _ ih1 ih2 =>
    obtain ⟨rs, h1, h2⟩ := ih1
    rw [finish_neutral] at h2
    subst h2
    obtain ⟨rs', h3, h4⟩ := ih2
    exact ⟨rs', .rcall h1 h3, h4⟩

theorem runT_of_run (hf : ∀ i ∈ good, ∀ j, Fits (f.exprs i) vs j) (hv : ∀ j, ¬None (vs j))
    (hg : ∀ i ∈ good, ∀ j, (f.exprs i j).uses = 1 ∧ (f.exprs i j).Placed ∧ (f.exprs i j).Clean = true)
    {c : Code (BitVec w) P M n} {rs : Fin n → BitVec w} {m : M} (h : Run (intOps w oth) f c rs m) :
    ∀ acc, RunT (intOps w oth) f vs good acc c (finish (intOps w oth) vs acc rs) m := by
  induction h with
  | ret vs' m => intro acc; exact .ret acc vs' m
  | @tail i args env m m' rs _ ih =>
    intro acc
    by_cases hi : i ∈ good
    · rw [← finish_assign (hf i hi) hv (hg i hi)]
      exact .loop hi (ih _)
    · refine .call hi ?_
      have := ih (neutral (intOps w oth) vs)
      rwa [finish_neutral] at this
  | rcall _ _ ih1 ih2 =>
    intro acc
    refine .rcall ?_ (ih2 acc)
    have := ih1 (neutral (intOps w oth) vs)
    rwa [finish_neutral] at this

end

end Verif.Lemmas.TailRec
