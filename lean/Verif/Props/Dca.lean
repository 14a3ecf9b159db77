import Verif.Lemmas.DcaGraph
/-!
# C107: don't care bits and occult constants
-/
namespace Verif.Props
open Verif.Spec Verif.Model Verif.Model.Dca Verif.Model.IrOpt Verif.Model.ConstBits Verif.Lemmas.Dca

/-- C107: two runs in which the nodes an expression uses agree in the bits that the analysis says matter: the values of the expression agree in the bits
that matter for it.  Only the first run has to obey the known bits and has to be free of undefined behaviour.  Missing from the full statement: arithmetic
shifts to the right whose count is not constant while some of its bits are known (see `dca_shrs_wrong`), and sizes that are not a power of two. -/
theorem dca_expr_partial {info : (m : IMode) → Expr m → Option (BitInfo m.bits)} {env env' : Env} {m : IMode} (e : Expr m) (hinfo : InfoRight info env e)
    (hok : e.Ok env) (hc : Covered info e) (care : BitVec m.bits)
    (hd : ∀ d ∈ demands info e care, AgreeOn d.care (env d.m d.n) (env' d.m d.n)) : AgreeOn care (e.eval env) (e.eval env') :=
  demands_sound e hinfo hok hc care hd

/-- the mode of `int` on a machine with 32 bits -/
abbrev shiftMode32 : IMode := ⟨true, 32, 32⟩

theorem shiftMode32_valid : shiftMode32.Valid := ⟨by decide, by decide, by decide, Or.inr ⟨by decide, by decide, 5, rfl⟩⟩

/-- `(x | 1) + y`, of which bit 0 matters: only bit 0 of `x | 1` and of `y` matters, and none of `x` -/
example : (demands (fun _ e => if regular e then some (bitsOf e) else none) (.add (.or (.leaf shiftMode32 0) (.const 1#32)) (.leaf shiftMode32 1)) 1#32).map
    (fun d => (d.n, d.care.toNat)) = [(1, 1)] := by decide +kernel

/-- `x >> 3` of which bit 31 matters: the sign of `x` -/
example : (demands (fun _ e => if regular e then some (bitsOf e) else none) (.shrs (.leaf shiftMode32 0) (.const (m := shiftMode32) 3#32)) 0x80000000#32).map
    (fun d => (d.n, d.care.toNat)) = [(0, 0x80000000)] := by decide +kernel

/-- the full statement for arithmetic shifts fails: in `x >> (c & 2)` the count is 0 or 2.  If bit 30 of the result matters, the analysis says that bit 30
of `x` matters, but bit 30 of the result is the sign of `x` when the count is 2 -/
theorem dca_shrs_wrong : ∃ (e : Expr shiftMode32) (env env' : Env) (care : BitVec 32),
    e.Ok env ∧ regular e = true ∧ InfoRight (fun _ e => if regular e then some (bitsOf e) else none) env e ∧
    (∀ d ∈ demands (fun _ e => if regular e then some (bitsOf e) else none) e care, AgreeOn d.care (env d.m d.n) (env' d.m d.n)) ∧
    ¬ AgreeOn care (e.eval env) (e.eval env') := by
  let e : Expr shiftMode32 := .shrs (.leaf shiftMode32 0) (.and (.leaf shiftMode32 1) (.const 2#32))
  let env : Env := fun m n => if n = 0 then 0 else 2
  let env' : Env := fun m n => if n = 0 then BitVec.ofNat m.bits 0x80000000 else 2
  have hd : (demands (fun _ e => if regular e then some (bitsOf e) else none) e 0x40000000#32).map (fun d => (d.m, d.n, d.care.toNat)) =
      [(shiftMode32, 0, 0x40000000), (shiftMode32, 1, 2)] := by decide +kernel
  have hval : shiftMode32.Valid := shiftMode32_valid
  refine ⟨e, env, env', 0x40000000#32, ⟨hval, ⟨hval, hval⟩, ⟨by decide, by decide⟩, (fun c h => nomatch h)⟩, by decide +kernel, ?_, ?_, ?_⟩
  · intro k s hu hok i hi
    dsimp only at hi
    split at hi
    · next hreg =>
      simp only [Option.some.injEq] at hi
      subst hi
      exact bitsWith_sound s (fun _ _ _ => describes_unknown _) hok hreg
    · cases hi
  · intro d hd'
    have hm := List.mem_map_of_mem (f := fun d : Demand => (d.m, d.n, d.care.toNat)) hd'
    rw [hd] at hm
    obtain ⟨dm, dn, dc⟩ := d
    simp only [List.mem_cons, List.not_mem_nil, or_false, Prod.mk.injEq] at hm
    rcases hm with ⟨rfl, rfl, h⟩ | ⟨rfl, rfl, h⟩
    · have : dc = 0x40000000#32 := BitVec.eq_of_toNat_eq h
      subst this
      have hx : ∀ i : Nat, i < 32 → (0x40000000#32).getLsbD i = true → (0#32).getLsbD i = (0x80000000#32).getLsbD i := by decide +kernel
      exact fun i hi => hx i (bit_lt hi) hi
    · exact fun _ _ => rfl
  · intro h
    exact absurd (h 30 (by decide)) (by decide +kernel)

/-! ## The analysis of a graph -/

variable {G : Graph} {s : State}

/-- What can be observed when control is in blocks that lead to the end of the function: the operands of the control flow nodes, the operands of
nodes with side effects, and those of loads, calls, … whose result matters -/
inductive Observed (G : Graph) (care : Care) : Key → Prop
  | stop : Observed G care (.x G.endX)
  | block {x : Nat} : Observed G care (.x x) → Observed G care (.block (G.xblock x))
  | pred {b x : Nat} : Observed G care (.block b) → x ∈ G.preds b → Observed G care (.x x)
  | sel {x : Nat} {k : Key} : Observed G care (.x x) → k ∈ selOps (G.xdef x) → Observed G care k
  | xop {x : Nat} {k : Key} : Observed G care (.x x) → k ∈ G.xOps x → Observed G care k
  | other {n : Nat} {k : Key} : Observed G care (.other n) → k ∈ G.otherOps n → Observed G care k
  | input {m : IMode} {n : Nat} {k : Key} : G.node m n = .input → care.data m n ≠ 0#m.bits → k ∈ G.inputOps m n → Observed G care k

/-- everything that can be observed matters completely -/
theorem observed_whole {fuel : Nat} {care : Care} (h : analyze G s fuel = some care) {k : Key} (hk : Observed G care k) : Meets care (.whole k) := by
  have hinit := careFor_spec [] ⟨Care.init, []⟩ (.whole (.x G.endX))
  have hinv : LoopInv G s (careFor ⟨Care.init, []⟩ (.whole (.x G.endX))) := by
    intro k
    rcases hinit.1.same k with h | h
    · right
      intro hh
      have := has_same h hh
      cases k with
      | data m n => exact absurd rfl this
      | block b => cases this
      | x x => cases this
      | other n => cases this
    · exact Or.inl h
  obtain ⟨hcl, hb⟩ := loop_spec fuel _ care hinv h
  induction hk with
  | stop => exact hinit.2.mono hb
  | @block x hx ih => exact hcl (.x x) ih (.whole (.block (G.xblock x))) List.mem_cons_self
  | @pred b x hb hx ih => exact hcl (.block b) ih (.whole (.x x)) (List.mem_map.2 ⟨x, hx, rfl⟩)
  | @sel x k hx hk ih =>
    exact hcl (.x x) ih (.whole k) (List.mem_cons_of_mem _ (List.mem_append_left _ (List.mem_map.2 ⟨k, List.mem_append_left _ hk, rfl⟩)))
  | @xop x k hx hk ih =>
    exact hcl (.x x) ih (.whole k) (List.mem_cons_of_mem _ (List.mem_append_left _ (List.mem_map.2 ⟨k, List.mem_append_right _ hk, rfl⟩)))
  | @other n k hn hk ih => exact hcl (.other n) ih (.whole k) (List.mem_map.2 ⟨k, hk, rfl⟩)
  | @input m n k hn hc hk =>
    refine hcl (.data m n) hc (.whole k) ?_
    simp only [transfer, hn]
    exact List.mem_map.2 ⟨k, hk, rfl⟩

theorem analyze_closed {fuel : Nat} {care : Care} (h : analyze G s fuel = some care) : Closed G s care := by
  have hinit := careFor_spec [] ⟨Care.init, []⟩ (.whole (.x G.endX))
  refine (loop_spec fuel _ care (fun k => ?_) h).1
  rcases hinit.1.same k with h | h
  · right
    intro hh
    have := has_same h hh
    cases k with
    | data m n => exact absurd rfl this
    | block b => cases this
    | x x => cases this
    | other n => cases this
  · exact Or.inl h

/-- the work list runs empty: the number of nodes that are taken from it is not larger than the number of bits of all nodes.  `U` are the nodes of the
graph -/
theorem dca_terminates {U : List Key} (hend : .x G.endX ∈ U) (hU : ∀ k ∈ U, ∀ k', Operand G k' k → k' ∈ U) {fuel : Nat}
    (hfuel : (U.map Key.size).sum ≤ fuel) : ∃ care, analyze G s fuel = some care := by
  have hinit := (careFor_spec U ⟨Care.init, []⟩ (.whole (.x G.endX))).1
  refine loop_total (U := U) (fun k hk st c hc => hU k hk _ (transfer_operand c hc)) fuel _ (fun k hk => ?_) ?_
  · rcases hinit.new k hk with h | h
    · cases h
    · rw [h]; exact hend
  · refine Nat.le_trans (hinit.room hend) ?_
    have : room U Care.init = (U.map Key.size).sum := by
      unfold room
      refine congrArg List.sum (List.map_congr_left fun k _ => ?_)
      cases k <;> simp [unset, Key.size, Care.init]
    simpa [this] using hfuel

/-! ## Occult constants -/

/-- a history of an execution is one of an execution -/
theorem run_reaches {G : SsaGraph} {tr : List (Option (Nat × Nat) × Env)} {b : Nat} {ρ : PEnv} (h : G.Run tr b ρ) : G.Reaches b ρ := by
  induction h with
  | start h => exact .start h
  | step _ hx ht hi h ih => exact .step ih hx ht hi h

/-- C107: replacing the nodes whose bits that matter are known by constants does not change what the program does.  For every execution of the graph that
is in a block that leads to the end there is one of the new graph with the same history — it went through the same jumps, and loads, calls, … returned the
same values — in which every node that had a value has one that agrees with it in the bits that matter, and in which everything that can be observed has
the same value.  Missing from the full statement: operations with wrong known bits (C72), arithmetic shifts to the right with a count that is not constant
(`dca_shrs_wrong`), and Confirm nodes with operands of which not all bits matter. -/
theorem occult_partial {last fuel : Nat} {care : Care} {walk : IMode → Nat → Bool} (hf : Fixpoint G.toSsaGraph last s) (hr : GraphRegular G.toSsaGraph)
    (ha : analyze G s fuel = some care) (hcov : GraphCovered G s care) (hwalk : ∀ m n, walk m n = true → m.Valid)
    (hwalk' : ∀ m n, walk m n = false → G.node m n = .input)
    {tr : List (Option (Nat × Nat) × Env)} {b : Nat} {ρ : PEnv} (hrun : G.Run tr b ρ) (hb : Observed G care (.block b)) :
    ∃ ρ', (occult G.toSsaGraph s care walk).Run tr b ρ' ∧
      (∀ m n v, ρ m n = some v → ∃ v', ρ' m n = some v' ∧ AgreeOn (care.data m n) v v') ∧
      ∀ m n v, Observed G care (.data m n) → ρ m n = some v → ρ' m n = some v := by
  have hcl := analyze_closed ha
  have hsame : ∀ {ρ ρ' : PEnv}, (∀ m n v, ρ m n = some v → ∃ v', ρ' m n = some v' ∧ AgreeOn (care.data m n) v v') →
      ∀ m n v, Observed G care (.data m n) → ρ m n = some v → ρ' m n = some v := by
    intro ρ ρ' h m n v hobs hv
    obtain ⟨v', h1, h2⟩ := h m n v hv
    have hw := observed_whole ha hobs
    have : v = v' := getLsbD_ext fun i hi => h2 i (hw i hi)
    rw [h1, this]
  have hstep : ∀ {ρ ρ0 ρ0' : PEnv} {opq : Env} {b : Nat} {i : Option Nat}, G.Enters ρ0 b i →
      (∀ m n v, ρ0 m n = some v → ∃ v', ρ0' m n = some v' ∧ AgreeOn (care.data m n) v v') →
      (∀ m n v, ρ m n = some v → G.Computes ρ0 opq b i m n v) →
      ∃ ρ' : PEnv, (∀ m n v, ρ' m n = some v → (occult G.toSsaGraph s care walk).Computes ρ0' opq b i m n v) ∧
        ∀ m n v, ρ m n = some v → ∃ v', ρ' m n = some v' ∧ AgreeOn (care.data m n) v v' := by
    intro ρ ρ0 ρ0' opq b i hent hρ0 hcomp
    have hex : ∀ m n, ∃ o : Option (BitVec m.bits), (∀ v, o = some v → (occult G.toSsaGraph s care walk).Computes ρ0' opq b i m n v) ∧
        ∀ v, ρ m n = some v → ∃ v', o = some v' ∧ AgreeOn (care.data m n) v v' := by
      intro m n
      cases hv : ρ m n with
      | none => exact ⟨none, (fun _ h => nomatch h), (fun _ h => nomatch h)⟩
      | some v =>
        obtain ⟨v', h1, h2⟩ := computes_sim hf hr hcl hcov hwalk hwalk' hent hρ0 (hcomp m n v hv)
        refine ⟨some v', fun u hu => ?_, fun u hu => ?_⟩
        · cases hu; exact h1
        · cases hu; exact ⟨v', rfl, h2⟩
    exact ⟨fun m n => Classical.choose (hex m n), fun m n => (Classical.choose_spec (hex m n)).1, fun m n => (Classical.choose_spec (hex m n)).2⟩
  induction hrun with
  | @start opq ρ h =>
    obtain ⟨ρ', h1, h2⟩ := hstep (ρ0' := fun _ _ => none) .start (fun _ _ _ h => nomatch h) h
    exact ⟨ρ', .start h1, h2, hsame h2⟩
  | @step tr b b' x i opq ρ ρ' hrun hx ht hi h ih =>
    have hox : Observed G care (.x x) := .pred hb (List.mem_of_getElem? hi)
    obtain ⟨ρ0', h1, h2, h3⟩ := ih (hx ▸ Observed.block hox)
    obtain ⟨ρ1', h4, h5⟩ := hstep (.step (run_reaches hrun) hx ht hi) h2 h
    refine ⟨ρ1', .step h1 hx ?_ hi h4, h5, hsame h5⟩
    unfold SsaGraph.Takes at ht ⊢
    show match G.xdef x with
      | .jmp => True
      | .cond sel num => ∃ v, ρ0' bmode sel = some v ∧ (v = 1#1 ↔ num = true)
      | .switch k sel => ∃ v, ρ0' k sel = some v
      | .other => True
      | .bad => False
    cases hxd : G.xdef x with
    | jmp => trivial
    | other => trivial
    | bad => rw [hxd] at ht; exact ht
    | cond sel num =>
      rw [hxd] at ht
      obtain ⟨v, hv, hn⟩ := ht
      exact ⟨v, h3 _ _ _ (.sel hox (by rw [hxd]; exact List.mem_singleton.2 rfl)) hv, hn⟩
    | switch k sel =>
      rw [hxd] at ht
      obtain ⟨v, hv⟩ := ht
      exact ⟨v, h3 _ _ _ (.sel hox (by rw [hxd]; exact List.mem_singleton.2 rfl)) hv⟩

/-! ## An example

`return ((x | 1) + y) & 1`: of `x | 1` only bit 0 matters, and it is known.  Blocks: 0 start, 1 end; jumps: 0 Return, 1 End. -/

/-- nodes of mode `Bu`: 0 and 1 are the parameters `x` and `y`, 2 is `x | 1`, 3 the sum, 4 the result -/
def occGraph : Graph where
  node
    | ⟨false, 8, 32⟩, 2 => .op (.or (.leaf mBu 0) (.const 1#8))
    | ⟨false, 8, 32⟩, 3 => .op (.add (.leaf mBu 2) (.leaf mBu 1))
    | ⟨false, 8, 32⟩, 4 => .op (.and (.leaf mBu 3) (.const 1#8))
    | _, _ => .input
  blockOf _ _ := 0
  preds
    | 1 => [0]
    | _ => []
  xdef
    | 0 => .other
    | _ => .bad
  xblock
    | 0 => 0
    | _ => 1
  start := 0
  xOps
    | 0 => [.other 0, .data mBu 4]
    | _ => []
  otherOps _ := []
  inputOps
    | ⟨false, 8, 32⟩, 0 => [.other 1]
    | ⟨false, 8, 32⟩, 1 => [.other 1]
    | _, _ => []
  endX := 1

/-- the known bits -/
def occState : State where
  data
    | ⟨false, 8, 32⟩, 2 => ⟨0xff#8, 1#8⟩
    | ⟨false, 8, 32⟩, 4 => ⟨1#8, 0#8⟩
    | m, _ => BitInfo.unknown m.bits
  block
    | 0 => maybe
    | 1 => maybe
    | _ => unreachable
  x
    | 0 => maybe
    | _ => unreachable

theorem occ_input {m : IMode} {n : Nat} (h : m ≠ mBu) : occGraph.node m n = .input := by
  unfold occGraph
  simp only
  split <;> first | rfl | exact absurd rfl h

theorem occ_fixpoint : Fixpoint occGraph.toSsaGraph 1 occState where
  x x := by
    match x with
    | 0 => decide +kernel
    | 1 => decide +kernel
    | n + 2 => rfl
  block b := by
    match b with
    | 0 => decide +kernel
    | 1 => decide +kernel
    | n + 2 => rfl
  data m n := by
    by_cases h1 : m = mBu
    · subst h1
      match n with
      | 0 => decide +kernel
      | 1 => decide +kernel
      | 2 => decide +kernel
      | 3 => decide +kernel
      | 4 => decide +kernel
      | n + 5 => rfl
    have e2 : occState.data m n = BitInfo.unknown m.bits := by
      unfold occState
      simp only
      split <;> first | rfl | exact absurd rfl h1
    rw [e2, transferData, occ_input h1]

theorem occ_op {P : (m : IMode) → Expr m → Prop} (h2 : P mBu (.or (.leaf mBu 0) (.const 1#8))) (h3 : P mBu (.add (.leaf mBu 2) (.leaf mBu 1)))
    (h4 : P mBu (.and (.leaf mBu 3) (.const 1#8))) : ∀ m n e, occGraph.node m n = .op e → P m e := by
  intro m n e h
  by_cases h1 : m = mBu
  · subst h1
    match n with
    | 0 => cases h
    | 1 => cases h
    | 2 => cases h; exact h2
    | 3 => cases h; exact h3
    | 4 => cases h; exact h4
    | n + 5 => cases h
  · rw [occ_input h1] at h; cases h

theorem occ_regular : GraphRegular occGraph.toSsaGraph where
  op := occ_op (P := fun _ e => regular e = true) (by decide) (by decide) (by decide)
  switch x k sel h := by
    match x with
    | 0 => cases h
    | n + 1 => cases h

theorem occ_covered (care : Care) : GraphCovered occGraph occState care where
  flat := occ_op (P := fun _ e => Flat e) ⟨Or.inl ⟨_, rfl⟩, Or.inr ⟨_, rfl⟩⟩ ⟨Or.inl ⟨_, rfl⟩, Or.inl ⟨_, rfl⟩⟩ ⟨Or.inl ⟨_, rfl⟩, Or.inr ⟨_, rfl⟩⟩
  covered := occ_op (P := fun _ e => Covered (nodeInfo occState) e) ⟨trivial, trivial⟩ ⟨trivial, trivial⟩ ⟨trivial, trivial⟩
  confirm m n v r b h := by
    exact (occ_op (P := fun m e => ∀ v r b, e ≠ Expr.confirm v r b) (by intros; simp) (by intros; simp) (by intros; simp) m n _ h v r b rfl).elim

/-- the result of the analysis: bit 0 of the results, of the sum, of `x | 1` and of `y` matters, and nothing of `x` -/
example : (analyze occGraph occState 50).map (fun c => (List.range 5).map fun n => (c.data mBu n).toNat) = some [0, 1, 1, 1, 0xff] := by decide +kernel

/-- the analysis ends -/
theorem occ_total : ∃ care, analyze occGraph occState 46 = some care := by
  cases h : analyze occGraph occState 46 with
  | some c => exact ⟨c, rfl⟩
  | none => exact absurd (congrArg Option.isSome h) (by decide +kernel)

/-- it is among the nodes of the graph that it ends -/
example : ∃ care, analyze occGraph occState 46 = some care :=
  dca_terminates (U := [.x 1, .x 0, .block 0, .block 1, .other 0, .other 1, .data mBu 0, .data mBu 1, .data mBu 2, .data mBu 3, .data mBu 4])
    (by decide) (by
      intro k hk k' h
      simp only [List.mem_cons, List.not_mem_nil, or_false] at hk
      rcases hk with rfl | rfl | rfl | rfl | rfl | rfl | rfl | rfl | rfl | rfl | rfl
      · rcases h with rfl | h | h
        · decide
        · cases h
        · cases h
      · rcases h with rfl | h | h
        · decide
        · cases h
        · rcases List.mem_cons.1 h with rfl | h
          · decide
          · rw [List.mem_singleton.1 h]; decide
      · obtain ⟨x, hx, rfl⟩ := h; cases hx
      · obtain ⟨x, hx, rfl⟩ := h; rw [List.mem_singleton.1 hx]; decide
      · cases h
      · cases h
      · rw [List.mem_singleton.1 h]; decide
      · rw [List.mem_singleton.1 h]; decide
      · obtain ⟨k, i, ⟨rfl, rfl⟩ | h, rfl⟩ := h
        · decide
        · cases h
      · obtain ⟨k, i, ⟨rfl, rfl⟩ | ⟨rfl, rfl⟩, rfl⟩ := h
        · decide
        · decide
      · obtain ⟨k, i, ⟨rfl, rfl⟩ | h, rfl⟩ := h
        · decide
        · cases h) (by decide)

/-- `x | 1` becomes the constant 1; the sum and the result stay, since bit 0 of `y` is not known -/
example : ∀ care, analyze occGraph occState 46 = some care →
    (occult occGraph.toSsaGraph occState care (fun m _ => m = mBu)).node mBu 2 = .op (.const 1#8) := by
  intro care h
  have h2 : (analyze occGraph occState 46).map (fun c => c.data mBu 2) = some 1#8 := by decide +kernel
  rw [h] at h2
  simp only [Option.map_some, Option.some.injEq] at h2
  simp only [occult, decide_true, if_true]
  rw [occultNode_const (by intro c h; cases h) (by rw [h2]; decide), h2]
  rfl

/-- in every execution the result is the same as before -/
example {tr : List (Option (Nat × Nat) × Env)} {ρ : PEnv} (hrun : occGraph.Run tr 0 ρ) {v : BitVec 8} (hv : ρ mBu 4 = some v) :
    ∃ care ρ', (occult occGraph.toSsaGraph occState care (fun m _ => m = mBu)).Run tr 0 ρ' ∧ ρ' mBu 4 = some v := by
  obtain ⟨care, hc⟩ := occ_total
  have hx : Observed occGraph care (.x 0) := .pred (.block .stop) (List.mem_singleton.2 rfl)
  obtain ⟨ρ', h1, -, h3⟩ := occult_partial (walk := fun m _ => m = mBu) occ_fixpoint occ_regular hc (occ_covered care)
    (fun m n h => by have : m = mBu := by simpa using h
                     subst this; exact mBu_valid)
    (fun m n h => occ_input (by simpa using h)) hrun (.block hx)
  exact ⟨care, ρ', h1, h3 _ _ _ (.xop hx (List.mem_cons_of_mem _ (List.mem_singleton.2 rfl))) hv⟩

/-- and there are executions: with `x = 6` and `y = 2` the result is 1 -/
example : ∃ (tr : List (Option (Nat × Nat) × Env)) (ρ : PEnv), occGraph.Run tr 0 ρ ∧ ρ mBu 4 = some 1#8 := by
  let opq : Env := fun _ n => if n = 0 then 6 else 2
  let ρ : PEnv := fun m n => if h : m = mBu ∧ n = 4 then some (h.1 ▸ (1#8 : BitVec mBu.bits)) else none
  refine ⟨_, ρ, .start (opq := opq) ?_, by decide⟩
  intro m n v h
  by_cases hm : m = mBu ∧ n = 4
  · obtain ⟨rfl, rfl⟩ := hm
    have : v = 1#8 := by simpa [ρ] using h.symm
    subst this
    have hin : ∀ (opq : Env) n, n < 2 → occGraph.Computes (fun _ _ => none) opq 0 none mBu n (opq mBu n) := by
      intro opq n hn
      refine .input rfl ?_
      match n, hn with
      | 0, _ => rfl
      | 1, _ => rfl
    have h2 : occGraph.Computes (fun _ _ => none) opq 0 none mBu 2 7#8 :=
      SsaGraph.Computes.op (G := occGraph.toSsaGraph) (m := mBu) (n := 2) (e := .or (.leaf mBu 0) (.const 1#8)) (env := fun _ _ => 6) rfl rfl
        (fun k j hu => by
          rcases hu with ⟨rfl, rfl⟩ | hu
          · exact hin opq 0 (by decide)
          · exact False.elim hu) ⟨mBu_valid, mBu_valid⟩
    have h3 : occGraph.Computes (fun _ _ => none) opq 0 none mBu 3 9#8 :=
      SsaGraph.Computes.op (G := occGraph.toSsaGraph) (m := mBu) (n := 3) (e := .add (.leaf mBu 2) (.leaf mBu 1))
        (env := fun m n => if n = 2 then 7 else 2) rfl rfl
        (fun k j hu => by
          rcases hu with ⟨rfl, rfl⟩ | ⟨rfl, rfl⟩
          · exact h2
          · exact hin opq 1 (by decide)) ⟨mBu_valid, mBu_valid⟩
    exact SsaGraph.Computes.op (G := occGraph.toSsaGraph) (m := mBu) (n := 4) (e := .and (.leaf mBu 3) (.const 1#8)) (env := fun _ _ => 9) rfl rfl
      (fun k j hu => by
        rcases hu with ⟨rfl, rfl⟩ | hu
        · exact h3
        · exact False.elim hu) ⟨mBu_valid, mBu_valid⟩
  · simp [ρ, hm] at h

end Verif.Props
