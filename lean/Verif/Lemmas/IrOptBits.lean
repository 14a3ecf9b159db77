import Verif.Model.IrOptBits
import Verif.Lemmas.IrOptValue
/-!
# Lemmas about the rules for bitwise operations
-/
namespace Verif.Model.IrOpt
open Verif.Spec

variable {m k : IMode} {env : Env}

attribute [irrule] Option.bind_eq_bind Option.bind_eq_some_iff Prod.exists Sigma.exists Option.ite_none_right_eq_some
  Option.some.injEq asConst_iff asMinus_iff asNot_iff asAdd_iff asSub_iff asMul_iff asDiv_iff asMod_iff asAnd_iff asOr_iff asEor_iff
  asShl_iff asShr_iff asShrs_iff asConv_iff asMux_iff asConfirm_iff asCmp_iff Bool.and_eq_true Bool.or_eq_true decide_eq_true_eq
  isNull_iff isOne_iff isAllOne_iff Option.dite_none_right_eq_some

theorem onBool2_ok {f : Expr bmode → Expr bmode → Option (Expr bmode)} {g : {m : IMode} → Expr m → Expr m → Expr m} {a b : Expr m}
    (h : ∀ a b : Expr bmode, RuleOk env (g a b) (f a b)) : RuleOk env (g a b) (onBool2 f a b) := by
  unfold onBool2
  split
  · next h' => subst h'; exact h a b
  · exact ruleOk_none _

theorem onBool_ok {f : Expr bmode → Option (Expr bmode)} {g : {m : IMode} → Expr m → Expr m} {a : Expr m}
    (h : ∀ a : Expr bmode, RuleOk env (g a) (f a)) : RuleOk env (g a) (onBool f a) := by
  unfold onBool
  split
  · next h' => subst h'; exact h a
  · exact ruleOk_none _

/-- the operation on values -/
def Root.op {w : Nat} : Root → BitVec w → BitVec w → BitVec w
  | .and, x, y => x &&& y
  | .or, x, y => x ||| y
  | .eor, x, y => x ^^^ y
  | .add, x, y => x + y
  | .mul, x, y => x * y

theorem Root.eval_mk (r : Root) (a b : Expr m) : (r.mk a b).eval env = r.op (a.eval env) (b.eval env) := by cases r <;> rfl

theorem Root.ok_mk (r : Root) {a b : Expr m} : (r.mk a b).Ok env ↔ a.Ok env ∧ b.Ok env := by cases r <;> exact Iff.rfl

theorem Root.view_iff (r : Root) (e : Expr m) (p) : r.view e = some p ↔ e = r.mk p.1 p.2 := by
  cases r <;> simp only [Root.view, Root.mk, irview]

theorem Root.op_assoc (r : Root) {w : Nat} (x y z : BitVec w) : r.op (r.op x y) z = r.op x (r.op y z) := by
  cases r
  · exact BitVec.and_assoc _ _ _
  · exact BitVec.or_assoc _ _ _
  · exact BitVec.xor_assoc _ _ _
  · exact BitVec.add_assoc _ _ _
  · exact BitVec.mul_assoc _ _ _

theorem asConstMux_iff (e : Expr m) (s : Expr bmode) (f t : BitVec m.bits) : asConstMux e = some (s, f, t) ↔ e = .mux s (.const f) (.const t) := by
  constructor
  · intro h
    simp only [asConstMux, irrule, Prod.mk.injEq] at h
    obtain ⟨s', f', t', rfl, cf, rfl, ct, rfl, rfl, rfl, rfl⟩ := h
    rfl
  · rintro rfl; rfl

attribute [irrule] asConstMux_iff Root.view_iff

theorem valid_const {e : Expr m} (h : e.Ok env) (c : BitVec m.bits) : (Expr.const c).Ok env := ok_valid e h

theorem binopMux_ok {C : Ctx} {r : Root} {op : BitVec m.bits → BitVec m.bits → BitVec m.bits} (a b : Expr m) (old : Expr m)
    (hok : old.Ok env → a.Ok env ∧ b.Ok env) (h : old.Ok env → old.eval env = op (a.eval env) (b.eval env)) :
    RuleOk env old (binopMux C op a b) := by
  unfold binopMux
  refine ruleOk_or ?_ (ruleOk_or ?_ ?_)
  · intro e' he ho
    simp only [irrule] at he
    obtain ⟨c, rfl, s, f, t, rfl, _, rfl⟩ := he
    obtain ⟨ha, hb⟩ := hok ho
    refine ⟨?_, ha.1, valid_const hb _, valid_const hb _⟩
    rw [h ho]; simp only [Expr.eval]; split <;> rfl
  · intro e' he ho
    simp only [irrule] at he
    obtain ⟨c, rfl, s, f, t, rfl, _, rfl⟩ := he
    obtain ⟨ha, hb⟩ := hok ho
    refine ⟨?_, hb.1, valid_const ha _, valid_const ha _⟩
    rw [h ho]; simp only [Expr.eval]; split <;> rfl
  · intro e' he ho
    simp only [irrule] at he
    obtain ⟨s, f, t, rfl, s', f', t', rfl, ⟨_, rfl⟩, rfl⟩ := he
    obtain ⟨ha, hb⟩ := hok ho
    refine ⟨?_, ha.1, valid_const ha.2.1 _, valid_const ha.2.1 _⟩
    rw [h ho]; simp only [Expr.eval]; split <;> rfl

theorem unopMux_ok {C : Ctx} {op : BitVec m.bits → BitVec m.bits} (a : Expr m) (old : Expr m)
    (hok : old.Ok env → a.Ok env) (h : old.Ok env → old.eval env = op (a.eval env)) :
    RuleOk env old (unopMux C op a) := by
  intro e' he ho
  simp only [unopMux, irrule] at he
  obtain ⟨s, f, t, rfl, _, rfl⟩ := he
  have ha := hok ho
  refine ⟨?_, ha.1, valid_const ha.2.1 _, valid_const ha.2.1 _⟩
  rw [h ho]; simp only [Expr.eval]; split <;> rfl

theorem foldAssoc_ok (r : Root) (a b : Expr m) : RuleOk env (r.mk a b) (foldAssoc r r.op a b) := by
  intro e' he ho
  simp only [foldAssoc, irrule] at he
  obtain ⟨c1, rfl, x, y, rfl, c0, rfl, rfl⟩ := he
  rw [Root.ok_mk, Root.ok_mk] at ho
  rw [Root.ok_mk]
  refine ⟨?_, ho.1.1, valid_const ho.1.1 _⟩
  simp only [Root.eval_mk, Expr.eval]
  rw [r.op_assoc]

/-! ### chains -/

/-- identities between bitwise operations -/
macro "bitwise" : tactic => `(tactic| (
  apply BitVec.eq_of_getLsbD_eq
  intro i hi
  simp only [BitVec.getLsbD_xor, BitVec.getLsbD_and, BitVec.getLsbD_or, BitVec.getLsbD_not, BitVec.getLsbD_allOnes, BitVec.getLsbD_zero,
    BitInfo.andnot, hi, decide_true, Bool.true_and, Bool.and_true, Bool.xor_false, Bool.or_false, Bool.and_false, Bool.xor_true] <;>
    grind))

theorem eorAdd_view {C : Ctx} {e l r : Expr m} (h : eorAdd C e = some (l, r)) : e = .or l r ∨ e = .eor l r ∨ e = .add l r := by
  unfold eorAdd at h
  cases h1 : orEorAdd C e with
  | some p => rw [h1] at h; cases h; exact (orEorAdd_some h1).1
  | none =>
    rw [h1] at h
    simp only [Option.orElse_eq_orElse, Option.orElse_none, Option.bind_eq_bind, Option.bind_eq_some_iff, irview] at h
    obtain ⟨⟨l', r'⟩, h1, h2⟩ := h
    split at h2
    · simp only [Option.some.injEq, Prod.mk.injEq] at h2
      obtain ⟨e1, e2⟩ := h2
      subst e1 e2
      exact Or.inr h1
    · cases h2

theorem eorAdd_add {C : Ctx} (S : C.Sound env) {x y : Expr m} (he : (Expr.add x y).Ok env) (h : (eorAdd C (.add x y)).isSome = true) :
    (Expr.add x y).eval env = x.eval env ^^^ y.eval env := by
  obtain ⟨⟨l, r⟩, hl⟩ := Option.isSome_iff_exists.1 h
  have hs := eorAdd_sound S he hl
  rcases eorAdd_view hl with h' | h' | h' <;> cases h'
  exact hs.2.2.1

/-- the chain computes `(cur & keep) ^ flip`, and a remembered Eor is a well-defined exclusive or -/
structure ChainOk (env : Env) (c : Chain m) (v : BitVec m.bits) : Prop where
  ok : c.cur.Ok env
  val : v = (c.cur.eval env &&& c.keep) ^^^ c.flip
  top : ∀ t, c.topEor = some t → t.Ok env ∧ ∀ l r, asEorAdd t = some (l, r) → t.eval env = l.eval env ^^^ r.eval env

theorem chainWalk_ok {C : Ctx} (S : C.Sound env) {m : IMode} (e : Expr m) (keep flip : BitVec m.bits) (top : Option (Expr m)) (he : e.Ok env)
    (ht : ∀ t, top = some t → t.Ok env ∧ ∀ l r, asEorAdd t = some (l, r) → t.eval env = l.eval env ^^^ r.eval env) :
    ChainOk env (chainWalk C e keep flip top) ((e.eval env &&& keep) ^^^ flip) := by
  fun_induction chainWalk C e keep flip top with
  | case1 m x keep flip top ih =>
    have := ih he ht
    refine ⟨this.ok, ?_, this.top⟩
    rw [← this.val]
    simp only [Expr.eval]
    bitwise
  | case2 m x c keep flip top ih =>
    have := ih he.1 ht
    refine ⟨this.ok, ?_, this.top⟩
    rw [← this.val]
    simp only [Expr.eval]
    bitwise
  | case3 m x c keep flip top h ih =>
    have hx := eorAdd_add S he h
    have := ih he.1 (by
      intro t h'; cases h'
      refine ⟨he, ?_⟩
      intro l' r' h'; cases h'
      exact hx)
    refine ⟨this.ok, ?_, this.top⟩
    rw [← this.val, hx]
    simp only [Expr.eval]
    bitwise
  | case4 => exact ⟨he, rfl, ht⟩
  | case5 m x c keep flip top ih =>
    have := ih he.1 (by
      intro t h'; cases h'
      refine ⟨he, ?_⟩
      intro l' r' h'; cases h'
      rfl)
    refine ⟨this.ok, ?_, this.top⟩
    rw [← this.val]
    simp only [Expr.eval]
    bitwise
  | case6 m x c keep flip top ih =>
    have := ih he.1 ht
    refine ⟨this.ok, ?_, this.top⟩
    rw [← this.val]
    simp only [Expr.eval]
    bitwise
  | case7 => exact ⟨he, rfl, ht⟩

theorem chainFlip_ok {top : Option (Expr m)} {res : Expr m} (flip : BitVec m.bits) (hr : res.Ok env)
    (ht : ∀ t, top = some t → t.Ok env ∧ ∀ l r, asEorAdd t = some (l, r) → t.eval env = l.eval env ^^^ r.eval env) :
    (chainFlip top res flip).eval env = res.eval env ^^^ flip ∧ (chainFlip top res flip).Ok env := by
  unfold chainFlip
  split
  · next h => subst h; exact ⟨by simp only [Expr.eval]; bitwise, hr⟩
  · split
    · split
      · next t ht' =>
        simp only [isEorAddOf, irrule] at ht'
        obtain ⟨t', h1, l, r, h2, ⟨rfl, rfl⟩, rfl⟩ := ht'
        exact ⟨(ht _ h1).2 _ _ h2, (ht _ h1).1⟩
      · exact ⟨rfl, hr, valid_const hr _⟩
    · next h => rw [ne_eq, Decidable.not_not] at h; rw [h, BitVec.xor_zero]; exact ⟨rfl, hr⟩

theorem chainFinish_ok {c : Chain m} {v : BitVec m.bits} (h : ChainOk env c v) : (chainFinish c).eval env = v ∧ (chainFinish c).Ok env := by
  have hv := h.val
  unfold chainFinish
  split
  · split
    · next h1 =>
      refine ⟨?_, h.ok, valid_const h.ok _⟩
      have hf : c.flip = ~~~c.keep := by
        have : c.flip = c.keep ^^^ (c.keep ^^^ c.flip) := by bitwise
        rw [this, h1]; bitwise
      rw [hv]; simp only [Expr.eval]; rw [hf]; bitwise
    · split
      · next h1 =>
        have := chainFlip_ok (res := .and (.not c.cur) (.const c.keep)) 0#m.bits (env := env) ⟨h.ok, valid_const h.ok _⟩ h.top
        refine ⟨?_, this.2⟩
        rw [this.1, hv, ← h1]; simp only [Expr.eval]; bitwise
      · have := chainFlip_ok (res := .and c.cur (.const c.keep)) c.flip (env := env) ⟨h.ok, valid_const h.ok _⟩ h.top
        refine ⟨?_, this.2⟩
        rw [this.1, hv]; rfl
  · next h1 =>
    rw [ne_eq, Decidable.not_not] at h1
    have := chainFlip_ok c.flip h.ok h.top
    refine ⟨?_, this.2⟩
    rw [this.1, hv, h1, BitVec.and_allOnes]

theorem bitopChain_ok {C : Ctx} (S : C.Sound env) (n : Expr m) : RuleOk env n (bitopChain C n) := by
  unfold bitopChain
  simp only []
  apply ruleOk_ite
  · intro _; exact ruleOk_none _
  · intro _
    refine ruleOk_some fun hok => ?_
    have := chainFinish_ok (chainWalk_ok S n (BitVec.allOnes m.bits) 0#m.bits none hok (by intro t h; cases h))
    refine ⟨?_, this.2⟩
    rw [this.1, BitVec.and_allOnes, BitVec.xor_zero]

/-! ### distributive laws -/

theorem commonOp_spec {al ar bl br c x y : Expr m} (h : commonOp al ar bl br = some (c, x, y)) :
    ((al = x ∧ ar = c) ∨ (al = c ∧ ar = x)) ∧ ((bl = y ∧ br = c) ∨ (bl = c ∧ br = y)) := by
  unfold commonOp at h
  split at h
  · next h1 => subst h1; cases h; simp
  · split at h
    · next h1 => subst h1; cases h; simp
    · split at h
      · next h1 => subst h1; cases h; simp
      · split at h
        · next h1 => subst h1; cases h; simp
        · cases h

/-- one of the bitwise operations -/
def Root.Bit (r : Root) : Prop := r = .and ∨ r = .or ∨ r = .eor

theorem conv_bit {r : Root} (hr : r.Bit) (x y : BitVec k.bits) :
    BitVec.ofInt m.bits (k.num (r.op x y)) = r.op (BitVec.ofInt m.bits (k.num x)) (BitVec.ofInt m.bits (k.num y)) := by
  apply BitVec.eq_of_getLsbD_eq; intro i hi
  rcases hr with rfl | rfl | rfl <;> simp only [Root.op, BitVec.getLsbD_and, BitVec.getLsbD_or, BitVec.getLsbD_xor, convTo_getLsbD m _ hi] <;> split <;>
    simp only [BitVec.getLsbD_and, BitVec.getLsbD_or, BitVec.getLsbD_xor, BitVec.msb_and, BitVec.msb_or, BitVec.msb_xor] <;> grind

theorem conv_narrow (h : m.bits ≤ k.bits) (x : BitVec k.bits) : BitVec.ofInt m.bits (k.num x) = x.setWidth m.bits := by
  apply BitVec.eq_of_getLsbD_eq; intro i hi
  rw [convTo_getLsbD m _ hi, if_pos (by omega), BitVec.getLsbD_setWidth]; simp [hi]

theorem conv_back (h : k.bits ≤ m.bits) (x : BitVec k.bits) : (BitVec.ofInt m.bits (k.num x)).setWidth k.bits = x := by
  apply BitVec.eq_of_getLsbD_eq; intro i hi
  rw [BitVec.getLsbD_setWidth, convTo_getLsbD m _ (by omega), if_pos hi]; simp [hi]

/-- conversion of a sum without carries -/
theorem conv_add {x y : BitVec k.bits} (h : BitVec.ofInt m.bits (k.num x) + BitVec.ofInt m.bits (k.num y) =
    BitVec.ofInt m.bits (k.num x) ^^^ BitVec.ofInt m.bits (k.num y)) :
    BitVec.ofInt m.bits (k.num (x + y)) = BitVec.ofInt m.bits (k.num x) + BitVec.ofInt m.bits (k.num y) := by
  by_cases hw : m.bits ≤ k.bits
  · simp only [conv_narrow hw]
    rw [BitVec.setWidth_add _ _ hw]
  · have hw : k.bits ≤ m.bits := by omega
    have hxy : x + y = x ^^^ y := by
      have := congrArg (BitVec.setWidth k.bits) h
      rwa [BitVec.setWidth_add _ _ hw, BitVec.setWidth_xor, conv_back hw, conv_back hw] at this
    rw [h, hxy]
    exact conv_bit (Or.inr (Or.inr rfl)) x y

/-- the node `old` computes `op a b` -/
structure IsOp (env : Env) (r : Root) (old a b : Expr m) : Prop where
  ok : old.Ok env → a.Ok env ∧ b.Ok env
  val : old.Ok env → old.eval env = r.op (a.eval env) (b.eval env)

theorem isOp_mk (r : Root) (a b : Expr m) : IsOp env r (r.mk a b) a b := ⟨fun h => r.ok_mk.1 h, fun _ => r.eval_mk a b⟩

theorem shl_bit {r : Root} (hr : r.Bit ∨ r = .add) {w : Nat} (x y : BitVec w) (n : Nat) : (r.op x y) <<< n = r.op (x <<< n) (y <<< n) := by
  rcases hr with (rfl | rfl | rfl) | rfl <;> simp only [Root.op]
  · exact BitVec.shiftLeft_and_distrib _ _ _
  · exact BitVec.shiftLeft_or_distrib _ _ _
  · exact BitVec.shiftLeft_xor_distrib _ _ _
  · exact BitVec.shiftLeft_add_distrib

theorem shr_bit {r : Root} (hr : r.Bit) {w : Nat} (x y : BitVec w) (n : Nat) : (r.op x y) >>> n = r.op (x >>> n) (y >>> n) := by
  rcases hr with rfl | rfl | rfl <;> simp only [Root.op]
  · exact BitVec.ushiftRight_and_distrib _ _ _
  · exact BitVec.ushiftRight_or_distrib _ _ _
  · exact BitVec.ushiftRight_xor_distrib _ _ _

theorem shrs_bit {r : Root} (hr : r.Bit) {w : Nat} (x y : BitVec w) (n : Nat) : (r.op x y).sshiftRight n = r.op (x.sshiftRight n) (y.sshiftRight n) := by
  rcases hr with rfl | rfl | rfl <;> simp only [Root.op]
  · exact BitVec.sshiftRight_and_distrib _ _ _
  · exact BitVec.sshiftRight_or_distrib _ _ _
  · exact BitVec.sshiftRight_xor_distrib _ _ _

theorem distConv_ok {r : Root} {old a b : Expr m} (hr : r.Bit ∨ (r = .add ∧ (old.Ok env → a.eval env + b.eval env = a.eval env ^^^ b.eval env)))
    (H : IsOp env r old a b) : RuleOk env old (distConv r a b) := by
  intro e' he ho
  simp only [distConv, irrule] at he
  obtain ⟨ka, x, rfl, kb, y, rfl, rfl, _, rfl⟩ := he
  have hok := H.ok ho
  refine ⟨?_, r.ok_mk.2 ⟨hok.1.1, hok.2.1⟩, hok.1.2⟩
  rw [H.val ho]
  simp only [Expr.eval, Root.eval_mk]
  rcases hr with hr | ⟨rfl, hr⟩
  · exact conv_bit hr _ _
  · exact conv_add (hr ho)

theorem distShl_ok {r : Root} {old a b : Expr m} (hr : r.Bit ∨ r = .add) (H : IsOp env r old a b) : RuleOk env old (distShl r a b) := by
  intro e' he ho
  simp only [distShl, irrule] at he
  obtain ⟨ka, x, c, rfl, kb, y, c', rfl, hc, rfl⟩ := he
  obtain ⟨rfl, rfl⟩ := sameNode_spec hc
  have hok := H.ok ho
  refine ⟨?_, r.ok_mk.2 ⟨hok.1.1, hok.2.1⟩, hok.1.2⟩
  rw [H.val ho]
  simp only [Expr.eval, Root.eval_mk, shl_bit hr]

theorem distShr_ok {r : Root} {old a b : Expr m} (hr : r.Bit) (H : IsOp env r old a b) : RuleOk env old (distShr r a b) := by
  intro e' he ho
  simp only [distShr, irrule] at he
  obtain ⟨ka, x, c, rfl, kb, y, c', rfl, hc, rfl⟩ := he
  obtain ⟨rfl, rfl⟩ := sameNode_spec hc
  have hok := H.ok ho
  refine ⟨?_, r.ok_mk.2 ⟨hok.1.1, hok.2.1⟩, hok.1.2⟩
  rw [H.val ho]
  simp only [Expr.eval, Root.eval_mk, shr_bit hr]

theorem distShrs_ok {r : Root} {old a b : Expr m} (hr : r.Bit) (H : IsOp env r old a b) : RuleOk env old (distShrs r a b) := by
  intro e' he ho
  simp only [distShrs, irrule] at he
  obtain ⟨ka, x, c, rfl, kb, y, c', rfl, hc, rfl⟩ := he
  obtain ⟨rfl, rfl⟩ := sameNode_spec hc
  have hok := H.ok ho
  refine ⟨?_, r.ok_mk.2 ⟨hok.1.1, hok.2.1⟩, hok.1.2⟩
  rw [H.val ho]
  simp only [Expr.eval, Root.eval_mk, shrs_bit hr]

theorem distAnd_ok {r : Root} {old a b : Expr m} (hr : r.Bit) (H : IsOp env r old a b) : RuleOk env old (distAnd r a b) := by
  intro e' he ho
  simp only [distAnd, irrule] at he
  obtain ⟨al, ar, rfl, bl, br, rfl, c, x, y, hc, rfl⟩ := he
  have hok := H.ok ho
  have hc := commonOp_spec hc
  have h1 : x.Ok env ∧ c.Ok env ∧ al.eval env &&& ar.eval env = x.eval env &&& c.eval env := by
    rcases hc.1 with ⟨rfl, rfl⟩ | ⟨rfl, rfl⟩
    · exact ⟨hok.1.1, hok.1.2, rfl⟩
    · exact ⟨hok.1.2, hok.1.1, BitVec.and_comm _ _⟩
  have h2 : y.Ok env ∧ bl.eval env &&& br.eval env = y.eval env &&& c.eval env := by
    rcases hc.2 with ⟨rfl, rfl⟩ | ⟨rfl, rfl⟩
    · exact ⟨hok.2.1, rfl⟩
    · exact ⟨hok.2.2, BitVec.and_comm _ _⟩
  refine ⟨?_, r.ok_mk.2 ⟨h1.1, h2.1⟩, h1.2.1⟩
  rw [H.val ho]
  simp only [Expr.eval, Root.eval_mk]
  rw [h1.2.2, h2.2]
  rcases hr with rfl | rfl | rfl <;> simp only [Root.op] <;> bitwise

theorem distOr_ok {r : Root} {old a b : Expr m} (hr : r.Bit) (H : IsOp env r old a b) : RuleOk env old (distOr r a b) := by
  intro e' he ho
  simp only [distOr, irrule] at he
  obtain ⟨al, ar, rfl, bl, br, rfl, c, x, y, hc, he⟩ := he
  have hok := H.ok ho
  have hc := commonOp_spec hc
  have h1 : x.Ok env ∧ c.Ok env ∧ al.eval env ||| ar.eval env = x.eval env ||| c.eval env := by
    rcases hc.1 with ⟨rfl, rfl⟩ | ⟨rfl, rfl⟩
    · exact ⟨hok.1.1, hok.1.2, rfl⟩
    · exact ⟨hok.1.2, hok.1.1, BitVec.or_comm _ _⟩
  have h2 : y.Ok env ∧ bl.eval env ||| br.eval env = y.eval env ||| c.eval env := by
    rcases hc.2 with ⟨rfl, rfl⟩ | ⟨rfl, rfl⟩
    · exact ⟨hok.2.1, rfl⟩
    · exact ⟨hok.2.2, BitVec.or_comm _ _⟩
  have hv := H.val ho
  simp only [Expr.eval] at hv
  rw [h1.2.2, h2.2] at hv
  split at he
  · next hre =>
    subst hre; cases he
    refine ⟨?_, ⟨h1.1, h2.1⟩, h1.2.1⟩
    rw [hv]; simp only [Root.op, Expr.eval]; bitwise
  · next hre =>
    cases he
    refine ⟨?_, r.ok_mk.2 ⟨h1.1, h2.1⟩, h1.2.1⟩
    rw [hv]; simp only [Expr.eval, Root.eval_mk]
    rcases hr with rfl | rfl | rfl
    · simp only [Root.op]; bitwise
    · simp only [Root.op]; bitwise
    · exact absurd rfl hre

theorem distributive_ok {C : Ctx} {r : Root} {old a b : Expr m} (hr : r.Bit) (H : IsOp env r old a b) : RuleOk env old (distributive C r a b) := by
  unfold distributive
  apply ruleOk_ite
  · intro _
    exact ruleOk_or (distConv_ok (Or.inl hr) H) (ruleOk_or (distShl_ok (Or.inl hr) H)
      (ruleOk_or (distShr_ok hr H) (ruleOk_or (distShrs_ok hr H) (ruleOk_or (distAnd_ok hr H) (distOr_ok hr H)))))
  · intro _; exact ruleOk_none _

/-- for an Add without carries, the cases that may produce a carry excluded -/
theorem distributive_add_ok {C : Ctx} {old a b : Expr m} (H : IsOp env .add old a b) (Hx : IsOp env .eor old a b) (hc : distCarry .add a b = none) :
    RuleOk env old (distributive C .add a b) := by
  unfold distributive
  rw [hc]
  apply ruleOk_ite
  · intro _
    refine ruleOk_or (distConv_ok (Or.inr ⟨rfl, fun h => ?_⟩) H) (ruleOk_or (distShl_ok (Or.inr rfl) H) (ruleOk_none _))
    have h1 := H.val h; have h2 := Hx.val h
    exact h1.symm.trans h2
  · intro _; exact ruleOk_none _

/-! ### bitwise operations and shifts -/

/-- the operation of a node that is transformed by the rules for Or and Eor: for an Add also the one it stands for -/
structure IsBitop (C : Ctx) (env : Env) (r : Root) (old a b : Expr m) : Prop where
  root : IsOp env r old a b
  eor : r = .add → IsOp env .eor old a b
  or : r = .add → disjoint C a b = true → IsOp env .or old a b
  notMul : r ≠ .mul
  eor_disjoint : r = .eor → disjoint C a b = true → IsOp env .or old a b

theorem countOf_some {c : BitVec k.bits} {n : Nat} (h : countOf c = some n) : n = c.toNat := by
  unfold countOf at h; split at h <;> cases h; rfl

attribute [irrule] countOf_some

theorem shl_and_shr {w : Nat} (x c : BitVec w) (n : Nat) : (x &&& (c >>> n)) <<< n = (x <<< n) &&& c := by
  apply BitVec.eq_of_getLsbD_eq; intro i hi
  simp only [BitVec.getLsbD_shiftLeft, BitVec.getLsbD_and, BitVec.getLsbD_ushiftRight, hi, decide_true, Bool.true_and]
  by_cases h : i < n
  · simp [h]
  · have : n + (i - n) = i := by omega
    simp [h, this]

theorem shr_and_shl {w : Nat} (x c : BitVec w) (n : Nat) : (x &&& (c <<< n)) >>> n = (x >>> n) &&& c := by
  apply BitVec.eq_of_getLsbD_eq; intro i hi
  simp only [BitVec.getLsbD_shiftLeft, BitVec.getLsbD_and, BitVec.getLsbD_ushiftRight]
  by_cases h : n + i < w
  · have h1 : n + i - n = i := by omega
    simp [h, h1]
  · rw [BitVec.getLsbD_of_ge x (n + i) (by omega)]; simp

/-- what the operation chosen by `bitopOf` computes is what the node computes -/
theorem bitopOf_op {C : Ctx} {r : Root} {old a b : Expr m} (H : IsBitop C env r old a b) :
    ∃ r' : Root, r'.Bit ∧ (r = .and ↔ r' = .and) ∧ IsOp env r' old a b ∧ ∀ x y : Expr m, bitopOf C r a b x y = r'.mk x y := by
  cases hr : r with
  | and => subst hr; exact ⟨.and, Or.inl rfl, by simp, H.root, fun _ _ => rfl⟩
  | or => subst hr; exact ⟨.or, Or.inr (Or.inl rfl), by simp, H.root, fun _ _ => rfl⟩
  | eor =>
    subst hr
    by_cases hd : disjoint C a b = true
    · exact ⟨.or, Or.inr (Or.inl rfl), by simp, H.eor_disjoint rfl hd, fun _ _ => by simp only [bitopOf, hd]; rfl⟩
    · exact ⟨.eor, Or.inr (Or.inr rfl), by simp, H.root, fun _ _ => by simp only [bitopOf, hd]; rfl⟩
  | add =>
    subst hr
    by_cases hd : disjoint C a b = true
    · exact ⟨.or, Or.inr (Or.inl rfl), by simp, H.or rfl hd, fun _ _ => by simp only [bitopOf, hd]; rfl⟩
    · exact ⟨.eor, Or.inr (Or.inr rfl), by simp, H.eor rfl, fun _ _ => by simp only [bitopOf, hd]; rfl⟩
  | mul => exact absurd hr H.notMul

theorem bitopShl_ok {C : Ctx} {r : Root} {old a b : Expr m} (H : IsBitop C env r old a b) : RuleOk env old (bitopShl C r a b) := by
  intro e' he ho
  obtain ⟨r', hr', hand, H', hb⟩ := bitopOf_op H
  simp only [bitopShl, hb, Option.bind_eq_bind, Option.bind_eq_some_iff, asConst_iff, Sigma.exists, Prod.exists, asShl_iff, Option.ite_none_right_eq_some,
    Option.some.injEq] at he
  obtain ⟨c2, rfl, k, x, s, rfl, c1, rfl, n, hn, hc, rfl⟩ := he
  have hn := countOf_some hn
  subst hn
  have hok := H'.ok ho
  refine ⟨?_, r'.ok_mk.2 ⟨hok.1.1, valid_const hok.1.1 _⟩, hok.1.2⟩
  rw [H'.val ho]
  simp only [Expr.eval, Root.eval_mk]
  simp only [Bool.or_eq_true, decide_eq_true_eq, hand] at hc
  rcases hc with rfl | hc
  · exact shl_and_shr _ _ _
  · rw [shl_bit (Or.inl hr'), hc]

theorem bitopShr_ok {C : Ctx} {r : Root} {old a b : Expr m} (H : IsBitop C env r old a b) : RuleOk env old (bitopShr C r a b) := by
  intro e' he ho
  obtain ⟨r', hr', hand, H', hb⟩ := bitopOf_op H
  simp only [bitopShr, hb, Option.bind_eq_bind, Option.bind_eq_some_iff, asConst_iff, Sigma.exists, Prod.exists, asShr_iff, Option.ite_none_right_eq_some,
    Option.some.injEq] at he
  obtain ⟨c2, rfl, k, x, s, rfl, c1, rfl, n, hn, hc, rfl⟩ := he
  have hn := countOf_some hn
  subst hn
  have hok := H'.ok ho
  refine ⟨?_, r'.ok_mk.2 ⟨hok.1.1, valid_const hok.1.1 _⟩, hok.1.2⟩
  rw [H'.val ho]
  simp only [Expr.eval, Root.eval_mk]
  rw [hand] at hc
  subst hc
  exact shr_and_shl _ _ _

theorem bitopShift_ok {C : Ctx} {r : Root} {old a b : Expr m} (H : IsBitop C env r old a b) : RuleOk env old (bitopShift C r a b) := by
  unfold bitopShift
  apply ruleOk_ite
  · intro _; exact ruleOk_or (bitopShl_ok H) (bitopShr_ok H)
  · intro _; exact ruleOk_none _

/-! ### two comparisons -/

theorem cmpsSame_ok {op : Rel → Rel → Rel} {old a b : Expr bmode} (hb : b.NotSelfCmp) : RuleOk env old (cmpsSame op a b) := by
  intro e' he
  simp only [cmpsSame, irrule] at he
  obtain ⟨ka, ra, al, ar, rfl, kb, rb, bl, br, rfl, ⟨_, h⟩, _⟩ := he
  exact absurd h hb

theorem valuesIn_bits {ka kb : IMode} (ha : 0 < ka.bits) (hb : 0 < kb.bits) (h : valuesIn ka kb = true) : ka.bits ≤ kb.bits := by
  unfold valuesIn at h
  simp only [Bool.or_eq_true, decide_eq_true_eq] at h
  rcases h with rfl | h
  · exact Nat.le_refl _
  · split at h
    · next h1 => subst h1; exact hb
    · simp only [Bool.and_eq_true, decide_eq_true_eq] at h; exact h.2

theorem conv_eq_zero {ka kb : IMode} (h : ka.bits ≤ kb.bits) (x : BitVec ka.bits) : BitVec.ofInt kb.bits (ka.num x) = 0#kb.bits ↔ x = 0#ka.bits := by
  constructor
  · intro h1
    rw [← conv_back (m := kb) h x, h1]; simp
  · rintro rfl; rw [num_zero]; simp

theorem or_eq_zero {w : Nat} (x y : BitVec w) : x ||| y = 0#w ↔ x = 0#w ∧ y = 0#w := BitVec.or_eq_zero_iff

/-- `rel` is `==` or `!=`, and the operation is And or Or -/
theorem cmpsEor_val {rel : Rel} {op : Bool → Bool → Bool} (hrel : (rel = Rel.equal ∧ op = and) ∨ (rel = Rel.lessGreater ∧ op = or))
    {ka kb : IMode} {a1 a2 : BitVec ka.bits} {b1 b2 : BitVec kb.bits} {w : Nat} {v : BitVec w} {x y : Int} (hv : v = 0#w ↔ a1 ^^^ a2 = 0#ka.bits ∧ b1 ^^^ b2 = 0#kb.bits)
    (hxy : x = y ↔ v = 0#w) :
    op (relHolds rel (ka.num a1) (ka.num a2)) (relHolds rel (kb.num b1) (kb.num b2)) = relHolds rel x y := by
  have hx : ∀ {w : Nat} (p q : BitVec w), p ^^^ q = 0#w ↔ p = q := fun p q => BitVec.xor_eq_zero_iff
  rw [hx, hx, ← num_inj, ← num_inj] at hv
  rcases hrel with ⟨rfl, rfl⟩ | ⟨rfl, rfl⟩
  · simp only [relHolds_equal, hxy, hv, Bool.decide_and]
  · simp only [relHolds_lessGreater, ne_eq, hxy, hv]
    by_cases h1 : ka.num a1 = ka.num a2 <;> by_cases h2 : kb.num b1 = kb.num b2 <;> simp [h1, h2]

theorem ofBool_bit {r : Root} {op : Bool → Bool → Bool} (h : (r = .and ∧ op = and) ∨ (r = .or ∧ op = or)) (p q : Bool) :
    r.op (BitVec.ofBool p) (BitVec.ofBool q) = BitVec.ofBool (op p q) := by
  rcases h with ⟨rfl, rfl⟩ | ⟨rfl, rfl⟩ <;> cases p <;> cases q <;> rfl

theorem cmpsEor_ok {C : Ctx} (S : C.Sound env) {r : Root} {rel : Rel} (hr : (r = .and ∧ rel = Rel.equal) ∨ (r = .or ∧ rel = Rel.lessGreater))
    {old a b : Expr bmode} (H : IsOp env r old a b) : RuleOk env old (cmpsEor C rel a b) := by
  intro e' he ho
  simp only [cmpsEor, irrule] at he
  obtain ⟨ka, ra, al, ar, rfl, kb, rb, bl, br, rfl, ⟨h1, h2⟩, he⟩ := he
  have hok := H.ok ho
  have hpa := possibleRel_sound S hok.1.1 hok.1.2
  have hpb := possibleRel_sound S hok.2.1 hok.2.2
  have hrel : ∃ op : Bool → Bool → Bool, ((rel = Rel.equal ∧ op = and) ∨ (rel = Rel.lessGreater ∧ op = or)) ∧ ((r = .and ∧ op = and) ∨ (r = .or ∧ op = or)) := by
    rcases hr with ⟨h1, h2⟩ | ⟨h1, h2⟩
    · exact ⟨and, Or.inl ⟨h2, rfl⟩, Or.inl ⟨h1, rfl⟩⟩
    · exact ⟨or, Or.inr ⟨h2, rfl⟩, Or.inr ⟨h1, rfl⟩⟩
  obtain ⟨op, hrel, hop⟩ := hrel
  have hv : old.eval env = BitVec.ofBool (op (relHolds rel (ka.num (al.eval env)) (ka.num (ar.eval env))) (relHolds rel (kb.num (bl.eval env)) (kb.num (br.eval env)))) := by
    rw [H.val ho]
    simp only [Expr.eval]
    rw [isRelation_sound h1 hpa, isRelation_sound h2 hpb]
    exact ofBool_bit hop _ _
  rw [hv]
  split at he
  · next hvi =>
    cases he
    refine ⟨?_, ⟨⟨⟨hok.1.1, hok.1.2⟩, ok_valid _ hok.2.1⟩, hok.2.1, hok.2.2⟩, valid_const hok.2.1 _⟩
    simp only [Expr.eval]
    congr 1
    symm
    refine cmpsEor_val hrel (v := BitVec.ofInt kb.bits (ka.num (al.eval env ^^^ ar.eval env)) ||| (bl.eval env ^^^ br.eval env)) ?_ num_inj
    rw [or_eq_zero, conv_eq_zero (valuesIn_bits (ok_pos hok.1.1) (ok_pos hok.2.1) hvi)]
  · split at he
    · next hvi =>
      cases he
      refine ⟨?_, ⟨⟨hok.1.1, hok.1.2⟩, ⟨hok.2.1, hok.2.2⟩, ok_valid _ hok.1.1⟩, valid_const hok.1.1 _⟩
      simp only [Expr.eval]
      congr 1
      symm
      refine cmpsEor_val hrel (v := (al.eval env ^^^ ar.eval env) ||| BitVec.ofInt ka.bits (kb.num (bl.eval env ^^^ br.eval env))) ?_ num_inj
      rw [or_eq_zero, conv_eq_zero (valuesIn_bits (ok_pos hok.2.1) (ok_pos hok.1.1) hvi)]
    · cases he

/-! ### the bits in which a number and its negation agree -/

theorem xor_neg_bit {w : Nat} (x : BitVec w) (i : Nat) : (x ^^^ -x).getLsbD i = (decide (i < w) && decide (∃ j < i, x.getLsbD j = true)) := by
  rw [BitVec.getLsbD_xor, BitVec.getLsbD_neg]
  by_cases hi : i < w
  · simp only [hi, decide_true, Bool.true_and]
    cases x.getLsbD i <;> simp
  · rw [BitVec.getLsbD_of_ge x i (by omega)]; simp [hi]

theorem xor_pred_bit {w : Nat} (x : BitVec w) {i : Nat} (hi : i < w) : (x ^^^ (x - 1#w)).getLsbD i = !decide (∃ j < i, x.getLsbD j = true) := by
  have h : x - 1#w = ~~~(-x) := by rw [BitVec.not_eq_neg_add]; grind
  have := xor_neg_bit x i
  rw [BitVec.getLsbD_xor] at this
  rw [h, BitVec.getLsbD_xor, BitVec.getLsbD_not]
  simp only [hi, decide_true, Bool.true_and] at this ⊢
  rw [← this]; simp

/-- below the rightmost bit that may be set, a number agrees with its negation -/
theorem minusMask_sound {C : Ctx} (S : C.Sound env) {x : Expr m} (hx : x.Ok env) :
    (-(x.eval env)) &&& minusMask C (.minus x) = x.eval env &&& minusMask C (.minus x) := by
  have key : ∀ i < m.bits, (minusMask C (.minus x)).getLsbD i = true → (-(x.eval env)).getLsbD i = (x.eval env).getLsbD i := by
    intro i hi h
    have hn : ¬∃ j < i, (-(x.eval env)).getLsbD j = true := by
      unfold minusMask at h
      split at h
      · next b hb =>
        have hd := S.bi (.minus x) b hx hb
        rw [xor_pred_bit _ hi] at h
        simp only [Bool.not_eq_true', decide_eq_false_iff_not] at h
        rintro ⟨j, hj, hjt⟩
        refine h ⟨j, hj, ?_⟩
        exact (hd j (by omega)).1 hjt
      · rw [BitVec.getLsbD_one] at h
        simp only [Bool.and_eq_true, decide_eq_true_eq] at h
        rintro ⟨j, hj, _⟩; omega
    have := xor_neg_bit (-(x.eval env)) i
    rw [BitVec.neg_neg, BitVec.getLsbD_xor] at this
    simp only [hn, decide_false, Bool.and_false] at this
    revert this; cases (-(x.eval env)).getLsbD i <;> cases (x.eval env).getLsbD i <;> simp
  apply BitVec.eq_of_getLsbD_eq; intro i hi
  rw [BitVec.getLsbD_and, BitVec.getLsbD_and]
  cases h : (minusMask C (.minus x)).getLsbD i
  · simp
  · rw [key i hi h]

/-! ### arithmetic and logical right shifts -/

theorem amt_le (m : IMode) (n : Nat) : m.amt n ≤ n := by
  unfold IMode.amt; split
  · exact Nat.le_refl _
  · exact Nat.mod_le _ _

theorem sshr_eq_shr_bit {w : Nat} (x : BitVec w) {n i : Nat} (h : n + i < w) : (x.sshiftRight n).getLsbD i = (x >>> n).getLsbD i := by
  rw [BitVec.getLsbD_sshiftRight, BitVec.getLsbD_ushiftRight]
  simp only [h, if_true]
  have : ¬w ≤ i := by omega
  simp [this]

/-- the shifts agree on all bits that matter -/
theorem shrsToShr_sound {C : Ctx} {a s' : Expr m} {v : BitVec m.bits} (ha : a.Ok env) (h : shrsToShr C a v = some s') :
    s'.Ok env ∧ s'.eval env &&& v = a.eval env &&& v := by
  simp only [shrsToShr, irrule] at h
  obtain ⟨k, x, s, rfl, c, rfl, ⟨_, hb⟩, rfl⟩ := h
  refine ⟨⟨ha.1, ha.2⟩, ?_⟩
  have hnn := ha.2.2.2 c rfl
  rw [num_nonneg_toNat hnn] at hb
  apply BitVec.eq_of_getLsbD_eq; intro i hi
  simp only [Expr.eval, BitVec.getLsbD_and]
  cases hv : v.getLsbD i
  · simp
  · have : (i : Int) ≤ highestBit v := by
      by_contra hlt
      have := (highestBit_lt v).1 (show highestBit v < (i : Nat) by omega) i (Nat.le_refl _)
      rw [this] at hv; cases hv
    have := amt_le m c.toNat
    rw [sshr_eq_shr_bit _ (by omega)]

end Verif.Model.IrOpt
