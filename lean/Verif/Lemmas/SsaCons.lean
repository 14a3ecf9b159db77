import Verif.Model.SsaCons
/-!
# The invariant of the construction of SSA form
-/
namespace Verif.Model.SsaCons

/-- the operands of a Phi are the values of the variable at the ends of the predecessors -/
def Complete (s : St) (b v : Nat) (args : List Nat) : Prop :=
  s.matured b = true ∧ args.length = (s.preds b).length ∧
    ∀ (i p : Nat), (s.preds b)[i]? = some (some p) → ∃ a r, args[i]? = some a ∧ s.arr p v = some r ∧ s.skip a = s.skip r

/-- the value comes unchanged from all predecessors -/
def Pass (s : St) (b v r : Nat) : Prop :=
  b ≠ 0 ∧ s.matured b = true ∧ ∀ p, some p ∈ s.preds b → ∃ r', s.arr p v = some r' ∧ s.skip r' = s.skip r

/-- `r` is the value of `v` at the begin of `b` -/
def Begin (s : St) (b v r : Nat) : Prop :=
  (∃ args, s.node (s.skip r) = .phi b v args) ∨ Pass s b v r ∨ (b = 0 ∧ s.node (s.skip r) = .unknown v)

/-- `P`: the Phi0 nodes whose operands are being read; `S`: the variables that are assigned in blocks; `E`: further nodes that were read before an
assignment in the block -/
structure Inv (S : Nat → Nat → Prop) (E : Nat → Nat → Nat → Prop) (s : St) (P : List Nat) : Prop where
  idem : ∀ x, s.skip (s.skip x) = s.skip x
  new : ∀ x, s.used ≤ x → s.skip x = x
  old : ∀ x, x < s.used → s.skip x < s.used
  moved : ∀ x, s.skip x ≠ x → ∃ b v args, s.node x = .phi b v args
  arrLt : ∀ b v r, s.arr b v = some r → r < s.used
  factLt : ∀ b v r, E b v r → r < s.used
  argLt : ∀ x b v args, x < s.used → s.node x = .phi b v args → ∀ a ∈ args, a < s.used
  phiBlock : ∀ x b v args, x < s.used → s.node x = .phi b v args → b ≠ 0
  phis : ∀ x b v args, x < s.used → s.node x = .phi b v args → s.skip x = x →
    (args = [] ∧ (x ∈ P ∧ s.matured b = true ∨ x ∈ s.phis b ∧ s.matured b = false)) ∨ Complete s b v args
  pend : ∀ x ∈ P, x < s.used ∧ s.skip x = x ∧ ∃ b v, s.node x = .phi b v [] ∧ s.matured b = true
  pendNodup : P.Nodup
  chain : ∀ b, s.matured b = false → ∀ x ∈ s.phis b, x < s.used ∧ s.skip x = x ∧ ∃ v, s.node x = .phi b v []
  chainNodup : ∀ b, s.matured b = false → (s.phis b).Nodup
  facts : ∀ b v r, (¬ S b v ∧ s.arr b v = some r) ∨ E b v r → Begin s b v r
  setArr : ∀ b v, S b v → s.arr b v ≠ none
  start : s.matured 0 = true ∧ s.preds 0 = []

theorem Inv.fact_lt {S : Nat → Nat → Prop} {E : Nat → Nat → Nat → Prop} {s : St} {P : List Nat} (h : Inv S E s P) {b v r : Nat}
    (hr : (¬ S b v ∧ s.arr b v = some r) ∨ E b v r) : r < s.used := by
  rcases hr with hr | hr
  · exact h.arrLt b v r hr.2
  · exact h.factLt b v r hr

/-- what the functions of the construction keep -/
structure Evolve (s s' : St) : Prop where
  skip : ∀ x, s'.skip (s.skip x) = s'.skip x
  arr : ∀ b v r, s.arr b v = some r → ∃ r', s'.arr b v = some r' ∧ s'.skip r' = s'.skip r
  preds : s'.preds = s.preds
  matured : s'.matured = s.matured
  used : s.used ≤ s'.used
  kind : ∀ x, x < s.used → s'.node x = s.node x ∨ ∃ b v args args', s.node x = .phi b v args ∧ s'.node x = .phi b v args'
  pass : ∀ b v r p, s.arr b v = none → s'.arr b v = some r → s.matured b = true → s.preds b = [some p] →
    ∃ r', s'.arr p v = some r' ∧ s'.skip r' = s'.skip r

namespace Evolve

theorem refl {s : St} (h : ∀ x, s.skip (s.skip x) = s.skip x) : Evolve s s where
  skip := h
  arr _ _ r hr := ⟨r, hr, rfl⟩
  preds := rfl
  matured := rfl
  used := Nat.le_refl _
  kind _ _ := Or.inl rfl
  pass _ _ _ _ h1 h2 := by rw [h1] at h2; cases h2

theorem skip_eq {s s' : St} (h : Evolve s s') {x y : Nat} (e : s.skip x = s.skip y) : s'.skip x = s'.skip y := by
  rw [← h.skip x, ← h.skip y, e]

theorem trans {s t u : St} (h1 : Evolve s t) (h2 : Evolve t u) : Evolve s u where
  skip x := by
    rw [← h2.skip (s.skip x), h1.skip, h2.skip]
  arr b v r hr := by
    obtain ⟨r1, a1, e1⟩ := h1.arr b v r hr
    obtain ⟨r2, a2, e2⟩ := h2.arr b v r1 a1
    exact ⟨r2, a2, e2.trans (h2.skip_eq e1)⟩
  preds := h2.preds.trans h1.preds
  matured := h2.matured.trans h1.matured
  used := Nat.le_trans h1.used h2.used
  kind x hx := by
    rcases h1.kind x hx with e1 | ⟨b, v, a, a', e1, e1'⟩
    · rcases h2.kind x (Nat.lt_of_lt_of_le hx h1.used) with e2 | ⟨b, v, c, c', e2, e2'⟩
      · exact Or.inl (e2.trans e1)
      · exact Or.inr ⟨b, v, c, c', e1 ▸ e2, e2'⟩
    · rcases h2.kind x (Nat.lt_of_lt_of_le hx h1.used) with e2 | ⟨b', v', c, c', e2, e2'⟩
      · exact Or.inr ⟨b, v, a, a', e1, e2.trans e1'⟩
      · rw [e1'] at e2
        cases e2
        exact Or.inr ⟨b, v, a, c', e1, e2'⟩
  pass b v r p h0 hr hm hp := by
    cases ht : t.arr b v with
    | none => exact h2.pass b v r p ht hr (h1.matured ▸ hm) (h1.preds ▸ hp)
    | some r1 =>
      obtain ⟨q, a, e⟩ := h1.pass b v r1 p h0 ht hm hp
      obtain ⟨r2, a2, e2⟩ := h2.arr b v r1 ht
      rw [hr] at a2
      cases a2
      obtain ⟨q', a', e'⟩ := h2.arr p v q a
      exact ⟨q', a', (e'.trans (h2.skip_eq e)).trans e2.symm⟩

end Evolve

variable {S : Nat → Nat → Prop} {E : Nat → Nat → Nat → Prop}

/-! ## New nodes -/

theorem skip_add (s : St) (n : Node) (x : Nat) : (s.add n).skip x = s.skip x := rfl

theorem node_add_old (s : St) (n : Node) {x : Nat} (h : x < s.used) : (s.add n).node x = s.node x := by
  simp only [St.add]; rw [if_neg (by omega)]

theorem node_add_new (s : St) (n : Node) : (s.add n).node s.used = n := by simp [St.add]

theorem evolve_add {s : St} {P : List Nat} (h : Inv S E s P) (n : Node) : Evolve s (s.add n) where
  skip := h.idem
  arr _ _ r hr := ⟨r, hr, rfl⟩
  preds := rfl
  matured := rfl
  used := Nat.le_succ _
  kind x hx := Or.inl (node_add_old s n hx)
  pass _ _ _ _ h1 h2 := by
    have : s.arr _ _ = _ := h2
    rw [h1] at this; cases this

theorem begin_add {s : St} {P : List Nat} (h : Inv S E s P) (n : Node) {b v r : Nat} (hr : r < s.used) (hb : Begin s b v r) :
    Begin (s.add n) b v r := by
  have hn : (s.add n).node (s.skip r) = s.node (s.skip r) := node_add_old s n (h.old r hr)
  rcases hb with ⟨a, e⟩ | hp | ⟨h0, e⟩
  · exact Or.inl ⟨a, hn.trans e⟩
  · exact Or.inr (Or.inl hp)
  · exact Or.inr (Or.inr ⟨h0, hn.trans e⟩)

/-- a new node that is no Phi -/
theorem inv_add {s : St} {P : List Nat} (h : Inv S E s P) {n : Node} (hn : ∀ b v args, n ≠ .phi b v args) : Inv S E (s.add n) P where
  idem := h.idem
  new x hx := h.new x (Nat.le_of_succ_le hx)
  old x hx := by
    show s.skip x < s.used + 1
    by_cases e : x < s.used
    · exact Nat.lt_succ_of_lt (h.old x e)
    · rw [h.new x (by omega)]; exact hx
  moved x hx := by
    obtain ⟨b, v, a, e⟩ := h.moved x hx
    have hlt : x < s.used := Classical.byContradiction fun hc => hx (h.new x (by omega))
    exact ⟨b, v, a, (node_add_old s n hlt).trans e⟩
  arrLt b v r hr := Nat.lt_succ_of_lt (h.arrLt b v r hr)
  factLt b v r hr := Nat.lt_succ_of_lt (h.factLt b v r hr)
  argLt x b v args hx e a ha := by
    by_cases hlt : x < s.used
    · rw [node_add_old s n hlt] at e
      exact Nat.lt_succ_of_lt (h.argLt x b v args hlt e a ha)
    · have : x = s.used := by have : x < s.used + 1 := hx; omega
      subst this
      rw [node_add_new] at e
      exact absurd e (hn b v args)
  phiBlock x b' v' args hx e := by
    by_cases hlt : x < s.used
    · rw [node_add_old s _ hlt] at e
      exact h.phiBlock x b' v' args hlt e
    · have : x = s.used := by have : x < s.used + 1 := hx; omega
      subst this
      rw [node_add_new] at e
      exact absurd e (hn b' v' args)
  phis x b v args hx e hs := by
    by_cases hlt : x < s.used
    · rw [node_add_old s n hlt] at e
      exact h.phis x b v args hlt e hs
    · have : x = s.used := by have : x < s.used + 1 := hx; omega
      subst this
      rw [node_add_new] at e
      exact absurd e (hn b v args)
  pend x hx := by
    obtain ⟨h1, h2, b, v, h3, h4⟩ := h.pend x hx
    exact ⟨Nat.lt_succ_of_lt h1, h2, b, v, (node_add_old s n h1).trans h3, h4⟩
  pendNodup := h.pendNodup
  chain b hb x hx := by
    obtain ⟨h1, h2, v, h3⟩ := h.chain b hb x hx
    exact ⟨Nat.lt_succ_of_lt h1, h2, v, (node_add_old s n h1).trans h3⟩
  chainNodup := h.chainNodup
  facts b v r hr := begin_add h n (h.fact_lt hr) (h.facts b v r hr)
  setArr := h.setArr
  start := h.start

/-- a new Phi0 in a matured block -/
theorem inv_add_phi {s : St} {P : List Nat} (h : Inv S E s P) {b v : Nat} (hm : s.matured b = true) (h0 : b ≠ 0) :
    Inv S E (s.add (.phi b v [])) (s.used :: P) where
  idem := h.idem
  new x hx := h.new x (Nat.le_of_succ_le hx)
  old x hx := by
    show s.skip x < s.used + 1
    by_cases e : x < s.used
    · exact Nat.lt_succ_of_lt (h.old x e)
    · rw [h.new x (by omega)]; exact hx
  moved x hx := by
    obtain ⟨b, v, a, e⟩ := h.moved x hx
    have hlt : x < s.used := Classical.byContradiction fun hc => hx (h.new x (by omega))
    exact ⟨b, v, a, (node_add_old s _ hlt).trans e⟩
  arrLt b v r hr := Nat.lt_succ_of_lt (h.arrLt b v r hr)
  factLt b v r hr := Nat.lt_succ_of_lt (h.factLt b v r hr)
  argLt x b' v' args hx e a ha := by
    by_cases hlt : x < s.used
    · rw [node_add_old s _ hlt] at e
      exact Nat.lt_succ_of_lt (h.argLt x b' v' args hlt e a ha)
    · have : x = s.used := by have : x < s.used + 1 := hx; omega
      subst this
      rw [node_add_new] at e
      cases e
      cases ha
  phiBlock x b' v' args hx e := by
    by_cases hlt : x < s.used
    · rw [node_add_old s _ hlt] at e
      exact h.phiBlock x b' v' args hlt e
    · have : x = s.used := by have : x < s.used + 1 := hx; omega
      subst this
      rw [node_add_new] at e
      cases e; exact h0
  phis x b' v' args hx e hs := by
    by_cases hlt : x < s.used
    · rw [node_add_old s _ hlt] at e
      rcases h.phis x b' v' args hlt e hs with ⟨h1, h2⟩ | h1
      · refine Or.inl ⟨h1, ?_⟩
        rcases h2 with h2 | h2
        · exact Or.inl ⟨List.mem_cons_of_mem _ h2.1, h2.2⟩
        · exact Or.inr h2
      · exact Or.inr h1
    · have : x = s.used := by have : x < s.used + 1 := hx; omega
      subst this
      rw [node_add_new] at e
      cases e
      exact Or.inl ⟨rfl, Or.inl ⟨List.mem_cons_self, hm⟩⟩
  pend x hx := by
    rcases List.mem_cons.1 hx with rfl | hx
    · exact ⟨Nat.lt_succ_self _, h.new _ (Nat.le_refl _), b, v, node_add_new s _, hm⟩
    · obtain ⟨h1, h2, b, v, h3, h4⟩ := h.pend x hx
      exact ⟨Nat.lt_succ_of_lt h1, h2, b, v, (node_add_old s _ h1).trans h3, h4⟩
  pendNodup := List.nodup_cons.2 ⟨fun hc => Nat.lt_irrefl _ (h.pend _ hc).1, h.pendNodup⟩
  chain b hb x hx := by
    obtain ⟨h1, h2, v, h3⟩ := h.chain b hb x hx
    exact ⟨Nat.lt_succ_of_lt h1, h2, v, (node_add_old s _ h1).trans h3⟩
  chainNodup := h.chainNodup
  facts b v r hr := begin_add h _ (h.fact_lt hr) (h.facts b v r hr)
  setArr := h.setArr
  start := h.start

/-! ## The table of values -/

theorem setArr_same (s : St) (b v x : Nat) : (s.setArr b v x).arr b v = some x := by simp [St.setArr]

theorem setArr_other (s : St) {b v b' v' : Nat} (x : Nat) (h : ¬ (b' = b ∧ v' = v)) : (s.setArr b v x).arr b' v' = s.arr b' v' := by
  simp only [St.setArr]; rw [if_neg h]

/-- an entry is new, or it is the same node as before -/
def Fits (s : St) (b v x : Nat) : Prop := s.arr b v = none ∨ ∃ r, s.arr b v = some r ∧ s.skip r = s.skip x

theorem setArr_grow {s : St} {b v x : Nat} (hf : Fits s b v x) {b' v' r : Nat} (hr : s.arr b' v' = some r) :
    ∃ r', (s.setArr b v x).arr b' v' = some r' ∧ s.skip r' = s.skip r := by
  by_cases e : b' = b ∧ v' = v
  · obtain ⟨rfl, rfl⟩ := e
    rcases hf with hf | ⟨q, hq, e⟩
    · rw [hf] at hr; cases hr
    · rw [hr] at hq
      cases hq
      exact ⟨x, setArr_same s _ _ x, e.symm⟩
  · exact ⟨r, (setArr_other s x e).trans hr, rfl⟩

theorem evolve_setArr {s : St} {P : List Nat} (h : Inv S E s P) {b v x : Nat} (hf : Fits s b v x)
    (hp : s.arr b v = none → ∀ p, s.matured b = true → s.preds b = [some p] → p ≠ b → ∃ r', s.arr p v = some r' ∧ s.skip r' = s.skip x) :
    Evolve s (s.setArr b v x) where
  skip := h.idem
  arr b' v' r hr := setArr_grow hf hr
  preds := rfl
  matured := rfl
  used := Nat.le_refl _
  kind _ _ := Or.inl rfl
  pass b' v' r p h1 h2 hm hpr := by
    by_cases e : b' = b ∧ v' = v
    · obtain ⟨rfl, rfl⟩ := e
      rw [setArr_same] at h2
      cases h2
      by_cases hpb : p = b'
      · subst hpb; exact ⟨x, setArr_same s _ _ x, rfl⟩
      · obtain ⟨r', hr', e'⟩ := hp h1 p hm hpr hpb
        refine ⟨r', ?_, e'⟩
        rw [setArr_other s x (fun hc => hpb hc.1)]
        exact hr'
    · rw [setArr_other s x e, h1] at h2; cases h2

theorem pass_grow {s s' : St} (hs : s'.skip = s.skip) (hm : s'.matured = s.matured) (hpr : s'.preds = s.preds)
    (ha : ∀ b v r, s.arr b v = some r → ∃ r', s'.arr b v = some r' ∧ s.skip r' = s.skip r) {b v r : Nat} (h : Pass s b v r) : Pass s' b v r := by
  refine ⟨h.1, hm ▸ h.2.1, fun p hp => ?_⟩
  obtain ⟨r1, h1, e1⟩ := h.2.2 p (hpr ▸ hp)
  obtain ⟨r2, h2, e2⟩ := ha p v r1 h1
  exact ⟨r2, h2, by rw [hs, e2, e1]⟩

theorem complete_grow {s s' : St} (hs : s'.skip = s.skip) (hm : s'.matured = s.matured) (hpr : s'.preds = s.preds)
    (ha : ∀ b v r, s.arr b v = some r → ∃ r', s'.arr b v = some r' ∧ s.skip r' = s.skip r) {b v : Nat} {args : List Nat}
    (h : Complete s b v args) : Complete s' b v args := by
  refine ⟨hm ▸ h.1, by rw [hpr]; exact h.2.1, fun i p hp => ?_⟩
  obtain ⟨a, r1, h0, h1, e1⟩ := h.2.2 i p (hpr ▸ hp)
  obtain ⟨r2, h2, e2⟩ := ha p v r1 h1
  exact ⟨a, r2, h0, h2, by rw [hs, e1, e2]⟩

theorem inv_setArr {s : St} {P : List Nat} (h : Inv S E s P) {b v x : Nat} (hf : Fits s b v x) (hx : x < s.used)
    (hb : ¬ S b v → Begin (s.setArr b v x) b v x) : Inv S E (s.setArr b v x) P where
  idem := h.idem
  new := h.new
  old := h.old
  moved := h.moved
  arrLt b' v' r hr := by
    by_cases e : b' = b ∧ v' = v
    · obtain ⟨rfl, rfl⟩ := e
      rw [setArr_same] at hr; cases hr; exact hx
    · rw [setArr_other s x e] at hr; exact h.arrLt _ _ _ hr
  factLt := h.factLt
  argLt := h.argLt
  phiBlock := h.phiBlock
  phis y b' v' args hy e hs := by
    rcases h.phis y b' v' args hy e hs with h1 | h1
    · exact Or.inl h1
    · exact Or.inr (complete_grow (s := s) (s' := s.setArr b v x) rfl rfl rfl (fun _ _ _ hr => setArr_grow hf hr) h1)
  pend := h.pend
  pendNodup := h.pendNodup
  chain := h.chain
  chainNodup := h.chainNodup
  facts b' v' r hr := by
    have lift : Begin s b' v' r → Begin (s.setArr b v x) b' v' r := by
      rintro (h1 | h1 | h1)
      · exact Or.inl h1
      · exact Or.inr (Or.inl (pass_grow (s := s) (s' := s.setArr b v x) rfl rfl rfl (fun _ _ _ hr => setArr_grow hf hr) h1))
      · exact Or.inr (Or.inr h1)
    rcases hr with ⟨hS, hr⟩ | hr
    · by_cases e : b' = b ∧ v' = v
      · obtain ⟨rfl, rfl⟩ := e
        rw [setArr_same] at hr
        cases hr
        exact hb hS
      · rw [setArr_other s x e] at hr
        exact lift (h.facts b' v' r (Or.inl ⟨hS, hr⟩))
    · exact lift (h.facts b' v' r (Or.inr hr))
  setArr b' v' hS hc := by
    cases hr : s.arr b' v' with
    | none => exact h.setArr b' v' hS hr
    | some r =>
      obtain ⟨r', h1, _⟩ := setArr_grow hf hr
      rw [h1] at hc; cases hc
  start := h.start

/-! ## The operands of a Phi -/

theorem setIn_node (s : St) (phi b v : Nat) (args : List Nat) : (s.setIn phi b v args).node phi = .phi b v args := by simp [St.setIn]

theorem setIn_other (s : St) {phi x : Nat} (b v : Nat) (args : List Nat) (h : x ≠ phi) : (s.setIn phi b v args).node x = s.node x := by
  simp only [St.setIn]; rw [if_neg h]

theorem inv_setIn {s : St} {P : List Nat} {phi b v : Nat} {args : List Nat} (h : Inv S E s (phi :: P)) (hn : s.node phi = .phi b v [])
    (hc : Complete s b v args) (ha : ∀ a ∈ args, a < s.used) : Inv S E (s.setIn phi b v args) P ∧ Evolve s (s.setIn phi b v args) := by
  obtain ⟨hlt, hsk, _⟩ := h.pend phi List.mem_cons_self
  have nd := List.nodup_cons.1 h.pendNodup
  have kind : ∀ x b' v', (∃ a, s.node x = .phi b' v' a) → ∃ a, (s.setIn phi b v args).node x = .phi b' v' a := by
    rintro x b' v' ⟨a, e⟩
    by_cases hx : x = phi
    · subst hx; rw [hn] at e; cases e; exact ⟨args, setIn_node s x b v args⟩
    · exact ⟨a, (setIn_other s b v args hx).trans e⟩
  have keep : ∀ b' v' r, Begin s b' v' r → Begin (s.setIn phi b v args) b' v' r := by
    rintro b' v' r (h1 | h1 | ⟨h1, h2⟩)
    · exact Or.inl (kind _ _ _ h1)
    · exact Or.inr (Or.inl h1)
    · refine Or.inr (Or.inr ⟨h1, ?_⟩)
      have hne : s.skip r ≠ phi := by intro hc; rw [hc, hn] at h2; cases h2
      exact (setIn_other s b v args hne).trans h2
  refine ⟨?_, ?_⟩
  · exact {
      idem := h.idem
      new := h.new
      old := h.old
      moved := fun x hx => by
        obtain ⟨b', v', a, e⟩ := h.moved x hx
        obtain ⟨a', e'⟩ := kind x b' v' ⟨a, e⟩
        exact ⟨b', v', a', e'⟩
      arrLt := h.arrLt
      factLt := h.factLt
      argLt := fun x b' v' a hx e y hy => by
        by_cases hxp : x = phi
        · subst hxp; rw [setIn_node] at e; cases e; exact ha y hy
        · rw [setIn_other s b v args hxp] at e; exact h.argLt x b' v' a hx e y hy
      phiBlock := fun x b' v' a hx e => by
        by_cases hxp : x = phi
        · subst hxp; rw [setIn_node] at e; cases e; exact h.phiBlock x _ _ _ hx hn
        · rw [setIn_other s b v args hxp] at e; exact h.phiBlock x b' v' a hx e
      phis := fun x b' v' a hx e hs => by
        by_cases hxp : x = phi
        · subst hxp; rw [setIn_node] at e; cases e; exact Or.inr hc
        · rw [setIn_other s b v args hxp] at e
          rcases h.phis x b' v' a hx e hs with ⟨h1, h2 | h2⟩ | h1
          · refine Or.inl ⟨h1, Or.inl ⟨?_, h2.2⟩⟩
            rcases List.mem_cons.1 h2.1 with h3 | h3
            · exact absurd h3 hxp
            · exact h3
          · exact Or.inl ⟨h1, Or.inr h2⟩
          · exact Or.inr h1
      pend := fun x hx => by
        obtain ⟨h1, h2, b', v', h3, h4⟩ := h.pend x (List.mem_cons_of_mem _ hx)
        have hne : x ≠ phi := fun e => nd.1 (e ▸ hx)
        exact ⟨h1, h2, b', v', (setIn_other s b v args hne).trans h3, h4⟩
      pendNodup := nd.2
      chain := fun b' hb x hx => by
        obtain ⟨h1, h2, v', h3⟩ := h.chain b' hb x hx
        have hne : x ≠ phi := by
          intro e
          subst e
          rw [hn] at h3
          cases h3
          have := hc.1
          have hb' : s.matured b = false := hb
          rw [this] at hb'; cases hb'
        exact ⟨h1, h2, v', (setIn_other s b v args hne).trans h3⟩
      chainNodup := h.chainNodup
      facts := fun b' v' r hr => keep b' v' r (h.facts b' v' r hr)
      setArr := h.setArr
      start := h.start }
  · exact {
      skip := h.idem
      arr := fun _ _ r hr => ⟨r, hr, rfl⟩
      preds := rfl
      matured := rfl
      used := Nat.le_refl _
      kind := fun x _ => by
        by_cases hxp : x = phi
        · subst hxp; exact Or.inr ⟨b, v, [], args, hn, setIn_node s x b v args⟩
        · exact Or.inl (setIn_other s b v args hxp)
      pass := fun _ _ _ _ h1 h2 => by
        have : s.arr _ _ = _ := h2
        rw [h1] at this; cases this }

/-! ## The removal of Phi nodes -/

theorem skip_exchange (s : St) (old nw x : Nat) : (s.exchange old nw).skip x = if s.skip x = old then nw else s.skip x := by
  unfold St.skip St.exchange
  simp only [List.foldl_append, List.foldl_cons, List.foldl_nil]
  rfl

theorem inv_exchange {s : St} {P : List Nat} {phi w b v : Nat} {args : List Nat} (h : Inv S E s P) (hlt : phi < s.used)
    (hn : s.node phi = .phi b v args) (hs : s.skip phi = phi) (hw : s.skip w = w) (hne : w ≠ phi) (hwl : w < s.used) (hne' : args ≠ [])
    (ha : ∀ a ∈ args, s.skip a = phi ∨ s.skip a = w) : Inv S E (s.exchange phi w) P ∧ Evolve s (s.exchange phi w) := by
  have e' := skip_exchange s phi w
  have hc : Complete s b v args := by
    rcases h.phis phi b v args hlt hn hs with h1 | h1
    · exact absurd h1.1 hne'
    · exact h1
  have two : ∀ x, s.skip x = phi ∨ s.skip x = w → (s.exchange phi w).skip x = w := by
    intro x hx
    rw [e']
    split
    · rfl
    · next hh => rcases hx with hx | hx
                 · exact absurd hx hh
                 · exact hx
  have eqs : ∀ x y, s.skip x = s.skip y → (s.exchange phi w).skip x = (s.exchange phi w).skip y := by
    intro x y hxy; rw [e', e', hxy]
  have ev : Evolve s (s.exchange phi w) := {
    skip := fun x => by rw [e', e', h.idem]
    arr := fun _ _ r hr => ⟨r, hr, rfl⟩
    preds := rfl
    matured := rfl
    used := Nat.le_refl _
    kind := fun _ _ => Or.inl rfl
    pass := fun _ _ _ _ h1 h2 => by
      have : s.arr _ _ = _ := h2
      rw [h1] at this; cases this }
  have kept : ∀ x, s.skip x ≠ phi → (s.exchange phi w).skip x = s.skip x := by
    intro x hx; rw [e', if_neg hx]
  refine ⟨?_, ev⟩
  exact {
    idem := fun x => by
      rw [e' x]
      split
      · exact two w (Or.inr hw)
      · next hh => rw [e', h.idem, if_neg hh]
    new := fun x hx => by
      have hx' : s.used ≤ x := hx
      have := h.new x hx
      rw [e', this, if_neg (by omega)]
    old := fun x hx => by
      rw [e']
      split
      · exact hwl
      · exact h.old x hx
    moved := fun x hx => by
      by_cases hxp : s.skip x = x
      · rw [e', hxp] at hx
        split at hx
        · next hh => subst hh; exact ⟨b, v, args, hn⟩
        · exact absurd rfl hx
      · exact h.moved x hxp
    arrLt := h.arrLt
    factLt := h.factLt
    argLt := h.argLt
    phiBlock := h.phiBlock
    phis := fun x b' v' a hx e hsx => by
      have hsx' : s.skip x = x := by
        rw [e'] at hsx
        split at hsx
        · next hh =>
          subst hsx
          exact absurd (hw.symm.trans hh) hne
        · exact hsx
      rcases h.phis x b' v' a hx e hsx' with h1 | h1
      · exact Or.inl h1
      · refine Or.inr ⟨h1.1, h1.2.1, fun i p hp => ?_⟩
        obtain ⟨a', r, h2, h3, h4⟩ := h1.2.2 i p hp
        exact ⟨a', r, h2, h3, eqs _ _ h4⟩
    pend := fun x hx => by
      obtain ⟨h1, h2, b', v', h3, h4⟩ := h.pend x hx
      refine ⟨h1, ?_, b', v', h3, h4⟩
      rw [kept x, h2]
      rw [h2]
      intro hxp
      subst hxp
      rw [hn] at h3
      cases h3
      exact hne' rfl
    pendNodup := h.pendNodup
    chain := fun b' hb x hx => by
      obtain ⟨h1, h2, v', h3⟩ := h.chain b' hb x hx
      refine ⟨h1, ?_, v', h3⟩
      rw [kept x, h2]
      rw [h2]
      intro hxp
      subst hxp
      rw [hn] at h3
      cases h3
      exact hne' rfl
    chainNodup := h.chainNodup
    facts := fun b' v' r hr => by
      have up : Pass s b' v' r → Pass (s.exchange phi w) b' v' r := by
        intro hp
        refine ⟨hp.1, hp.2.1, fun p hpp => ?_⟩
        obtain ⟨r', h1, h2⟩ := hp.2.2 p hpp
        exact ⟨r', h1, eqs _ _ h2⟩
      by_cases hrp : s.skip r = phi
      · rcases h.facts b' v' r hr with ⟨a, h1⟩ | h1 | ⟨h0, h1⟩
        · rw [hrp, hn] at h1
          cases h1
          refine Or.inr (Or.inl ⟨?_, hc.1, fun p hp => ?_⟩)
          · rintro rfl
            have := hc.2.1
            rw [h.start.2] at this
            exact hne' (List.eq_nil_of_length_eq_zero this)
          · obtain ⟨i, hi⟩ := List.getElem?_of_mem hp
            obtain ⟨a, r', h1, h2, h3⟩ := hc.2.2 i p hi
            refine ⟨r', h2, ?_⟩
            rw [two r (Or.inl hrp)]
            exact two r' (by rw [← h3]; exact ha a (List.mem_of_getElem? h1))
        · exact Or.inr (Or.inl (up h1))
        · rw [hrp, hn] at h1; cases h1
      · rcases h.facts b' v' r hr with ⟨a, h1⟩ | h1 | ⟨h0, h1⟩
        · exact Or.inl ⟨a, by rw [kept r hrp]; exact h1⟩
        · exact Or.inr (Or.inl (up h1))
        · exact Or.inr (Or.inr ⟨h0, by rw [kept r hrp]; exact h1⟩)
    setArr := h.setArr
    start := h.start }

theorem scan_spec {phi : Nat} {xs : List Nat} {self : Bool} {val : Option Nat} {r : Bool × Option Nat} (h : scan phi xs self val = some r)
    (hv : ∀ w, val = some w → w ≠ phi) :
    (∀ x ∈ xs, x = phi ∨ r.2 = some x) ∧ (∀ w, val = some w → r.2 = some w) ∧
    (∀ w, r.2 = some w → w ≠ phi ∧ (val = some w ∨ w ∈ xs)) := by
  induction xs generalizing self val with
  | nil =>
    simp only [scan, Option.some.injEq] at h
    subst h
    exact ⟨fun x hx => (nomatch hx), fun w hw => hw, fun w hw => ⟨hv w hw, Or.inl hw⟩⟩
  | cons x xs ih =>
    unfold scan at h
    by_cases hx : x = phi
    · rw [if_pos hx] at h
      obtain ⟨h1, h2, h3⟩ := ih h hv
      refine ⟨fun y hy => ?_, h2, fun w hw => ?_⟩
      · rcases List.mem_cons.1 hy with rfl | hy
        · exact Or.inl hx
        · exact h1 y hy
      · obtain ⟨h4, h5⟩ := h3 w hw
        exact ⟨h4, h5.imp id (List.mem_cons_of_mem _)⟩
    · rw [if_neg hx] at h
      by_cases hv' : val = some x
      · rw [if_pos hv'] at h
        obtain ⟨h1, h2, h3⟩ := ih h hv
        refine ⟨fun y hy => ?_, h2, fun w hw => ?_⟩
        · rcases List.mem_cons.1 hy with rfl | hy
          · exact Or.inr (h2 _ hv')
          · exact h1 y hy
        · obtain ⟨h4, h5⟩ := h3 w hw
          exact ⟨h4, h5.imp id (List.mem_cons_of_mem _)⟩
      · rw [if_neg hv'] at h
        by_cases hn : val = none
        · rw [if_pos hn] at h
          obtain ⟨h1, h2, h3⟩ := ih h (by intro w hw; cases hw; exact hx)
          refine ⟨fun y hy => ?_, fun w hw => (by rw [hn] at hw; cases hw), fun w hw => ?_⟩
          · rcases List.mem_cons.1 hy with rfl | hy
            · exact Or.inr (h2 _ rfl)
            · exact h1 y hy
          · obtain ⟨h4, h5⟩ := h3 w hw
            refine ⟨h4, Or.inr ?_⟩
            rcases h5 with h5 | h5
            · cases h5; exact List.mem_cons_self
            · exact List.mem_cons_of_mem _ h5
        · rw [if_neg hn] at h; cases h

theorem inv_tryRemove {P : List Nat} (fuel : Nat) {phi : Nat} {s : St} (h : Inv S E s P) (hlt : phi < s.used) (hs : s.skip phi = phi) :
    Inv S E (tryRemove fuel phi s) P ∧ Evolve s (tryRemove fuel phi s) := by
  induction fuel generalizing phi s with
  | zero => exact ⟨h, Evolve.refl h.idem⟩
  | succ fuel ih =>
    have triv : Inv S E s P ∧ Evolve s s := ⟨h, Evolve.refl h.idem⟩
    unfold tryRemove
    cases hn : s.node phi with
    | phi b v args =>
      simp only []
      cases hsc : scan phi (args.map s.skip) false none with
      | none => exact triv
      | some r =>
        obtain ⟨self, val⟩ := r
        cases val with
        | none => exact triv
        | some w =>
          simp only []
          split
          · exact triv
          · obtain ⟨h1, -, h3⟩ := scan_spec hsc (by intro w hw; cases hw)
            obtain ⟨h4, h5⟩ := h3 w rfl
            have hwm : w ∈ args.map s.skip := by
              rcases h5 with h5 | h5
              · cases h5
              · exact h5
            obtain ⟨a, haa, rfl⟩ := List.mem_map.1 hwm
            have hwl : s.skip a < s.used := h.old a (h.argLt phi b v args hlt hn a haa)
            have := inv_exchange h hlt hn hs (h.idem a) h4 hwl (List.ne_nil_of_mem haa) (fun y hy => by
              rcases h1 (s.skip y) (List.mem_map_of_mem hy) with h6 | h6
              · exact Or.inl h6
              · exact Or.inr (Option.some.inj h6).symm)
            obtain ⟨i1, e1⟩ := this
            split
            · have hs' : (s.exchange phi (s.skip a)).skip (s.skip a) = s.skip a := by
                rw [skip_exchange, h.idem, if_neg h4]
              obtain ⟨i2, e2⟩ := ih i1 hwl hs'
              exact ⟨i2, e1.trans e2⟩
            · exact ⟨i1, e1⟩
    | front _ => exact triv
    | unknown _ => exact triv
    | bad => exact triv

/-! ## Reading variables -/

/-- reading a variable in a block -/
def Reads (S : Nat → Nat → Prop) (E : Nat → Nat → Nat → Prop) (v : Nat) (read : Nat → St → Option (Nat × St)) : Prop :=
  ∀ P p s x s', Inv S E s P → read p s = some (x, s') → Inv S E s' P ∧ Evolve s s' ∧ s'.arr p v = some x

theorem inv_readAll {v : Nat} {read : Nat → St → Option (Nat × St)} (hr : Reads S E v read) {P : List Nat} (ps : List (Option Nat)) {s : St}
    {xs : List Nat} {s' : St} (h : Inv S E s P) (e : readAll read ps s = some (xs, s')) :
    Inv S E s' P ∧ Evolve s s' ∧ xs.length = ps.length ∧ (∀ a ∈ xs, a < s'.used) ∧
      ∀ (i p : Nat), ps[i]? = some (some p) → ∃ a r, xs[i]? = some a ∧ s'.arr p v = some r ∧ s'.skip a = s'.skip r := by
  induction ps generalizing s xs s' with
  | nil =>
    simp only [readAll, Option.some.injEq, Prod.mk.injEq] at e
    obtain ⟨rfl, rfl⟩ := e
    exact ⟨h, Evolve.refl h.idem, rfl, fun a ha => (nomatch ha), fun i p hp => by simp at hp⟩
  | cons p ps ih =>
    cases p with
    | none =>
      simp only [readAll] at e
      cases hq : readAll read ps (s.add .bad) with
      | none => rw [hq] at e; cases e
      | some r =>
        obtain ⟨ys, t⟩ := r
        rw [hq] at e
        simp only [Option.some.injEq, Prod.mk.injEq] at e
        obtain ⟨rfl, rfl⟩ := e
        obtain ⟨h1, h2, h3, h4, h5⟩ := ih (inv_add h (n := .bad) (by intro _ _ _ hc; cases hc)) hq
        refine ⟨h1, (evolve_add h _).trans h2, by simp [h3], fun a ha => ?_, fun i q hi => ?_⟩
        · rcases List.mem_cons.1 ha with rfl | ha
          · have h6 : s.used + 1 ≤ t.used := h2.used
            omega
          · exact h4 a ha
        · cases i with
          | zero => simp at hi
          | succ i => exact h5 i q (by simpa using hi)
    | some p =>
      simp only [readAll] at e
      cases hq : read p s with
      | none => rw [hq] at e; cases e
      | some r =>
        obtain ⟨x, t⟩ := r
        rw [hq] at e
        simp only [] at e
        obtain ⟨i1, e1, a1⟩ := hr P p s x t h hq
        cases hq2 : readAll read ps t with
        | none => rw [hq2] at e; cases e
        | some r2 =>
          obtain ⟨ys, u⟩ := r2
          rw [hq2] at e
          simp only [Option.some.injEq, Prod.mk.injEq] at e
          obtain ⟨rfl, rfl⟩ := e
          obtain ⟨h1, h2, h3, h4, h5⟩ := ih i1 hq2
          refine ⟨h1, e1.trans h2, by simp [h3], fun a ha => ?_, fun i q hi => ?_⟩
          · rcases List.mem_cons.1 ha with rfl | ha
            · exact Nat.lt_of_lt_of_le (i1.arrLt _ _ _ a1) h2.used
            · exact h4 a ha
          · cases i with
            | zero =>
              simp only [List.getElem?_cons_zero, Option.some.injEq] at hi
              subst hi
              obtain ⟨r', h6, h7⟩ := h2.arr p v x a1
              exact ⟨x, r', rfl, h6, h7.symm⟩
            | succ i => exact h5 i q (by simpa using hi)

theorem inv_kept {s : St} {P : List Nat} (h : Inv S E s P) (k : List Nat) : Inv S E { s with kept := k } P := { h with }

theorem evolve_kept {s : St} {P : List Nat} (h : Inv S E s P) (k : List Nat) : Evolve s { s with kept := k } :=
  ⟨h.idem, fun _ _ r hr => ⟨r, hr, rfl⟩, rfl, rfl, Nat.le_refl _, fun _ _ => Or.inl rfl, fun _ _ _ _ h1 h2 => by
    have : s.arr _ _ = _ := h2
    rw [h1] at this; cases this⟩

theorem inv_setPhiArgs {v : Nat} {read : Nat → St → Option (Nat × St)} (hr : Reads S E v read) {P : List Nat} {phi b : Nat} {s s' : St}
    (h : Inv S E s (phi :: P)) (hn : s.node phi = .phi b v []) (hm : s.matured b = true) (e : setPhiArgs read phi b v s = some s') :
    Inv S E s' P ∧ Evolve s s' := by
  unfold setPhiArgs at e
  cases hq : readAll read (s.preds b) s with
  | none => rw [hq] at e; cases e
  | some r =>
    obtain ⟨args, t⟩ := r
    rw [hq] at e
    simp only [Option.some.injEq] at e
    obtain ⟨i1, e1, hl, hlt, hc⟩ := inv_readAll hr (s.preds b) h hq
    have hpl := (h.pend phi List.mem_cons_self).1
    obtain ⟨q1, q2, b', v', q3, q4⟩ := i1.pend phi List.mem_cons_self
    have hn' : t.node phi = .phi b v [] := by
      rcases e1.kind phi hpl with hk | ⟨b2, v2, a, a', hk, hk'⟩
      · exact hk.trans hn
      · rw [hn] at hk
        cases hk
        rw [q3] at hk'
        cases hk'
        exact q3
    have hcomp : Complete t b v args := ⟨by rw [e1.matured]; exact hm, by rw [e1.preds]; exact hl, fun i p hp => hc i p (by rw [← e1.preds]; exact hp)⟩
    obtain ⟨i2, e2⟩ := inv_setIn i1 hn' hcomp hlt
    have e2' : (t.setIn phi b v args).skip phi = phi := q2
    obtain ⟨i3, e3⟩ := inv_tryRemove ((t.setIn phi b v args).used + 1) i2 q1 e2'
    split at e
    · subst e
      exact ⟨inv_kept i3 _, ((e1.trans e2).trans e3).trans (evolve_kept i3 _)⟩
    · subst e
      exact ⟨i3, (e1.trans e2).trans e3⟩

theorem inv_getValue (fuel : Nat) (v : Nat) : Reads S E v (fun b s => getValue fuel b v s) := by
  induction fuel with
  | zero => intro P b s x s' h e; cases e
  | succ fuel ih =>
    intro P b s x s' h e
    simp only [getValue] at e
    cases ha : s.arr b v with
    | some r =>
      rw [ha] at e
      simp only [Option.some.injEq, Prod.mk.injEq] at e
      obtain ⟨rfl, rfl⟩ := e
      exact ⟨h, Evolve.refl h.idem, ha⟩
    | none =>
      rw [ha] at e
      simp only [] at e
      have hS : ¬ S b v := fun hc => h.setArr b v hc ha
      cases hm : s.matured b with
      | true =>
        rw [hm, if_pos rfl] at e
        -- a new node that is no Phi
        have leaf : ∀ n : Node, (∀ b v args, n ≠ .phi b v args) → (∀ p, s.preds b ≠ [some p]) →
            Begin ((s.add n).setArr b v s.used) b v s.used →
            Inv S E ((s.add n).setArr b v s.used) P ∧ Evolve s ((s.add n).setArr b v s.used) ∧ ((s.add n).setArr b v s.used).arr b v = some s.used := by
          intro n hn hp hb
          have i1 := inv_add h hn
          have hf : Fits (s.add n) b v s.used := Or.inl ha
          exact ⟨inv_setArr i1 hf (Nat.lt_succ_self _) (fun _ => hb),
            (evolve_add h n).trans (evolve_setArr i1 hf (fun _ p _ hp' => absurd hp' (hp p))), setArr_same _ _ _ _⟩
        have hsu : ∀ n, ((s.add n).setArr b v s.used).skip s.used = s.used := fun n => h.new _ (Nat.le_refl _)
        cases hp : s.preds b with
        | nil =>
          rw [hp] at e
          simp only [] at e
          split at e
          · next h0 =>
            simp only [Option.some.injEq, Prod.mk.injEq] at e
            obtain ⟨rfl, rfl⟩ := e
            refine leaf (.unknown v) (by intro _ _ _ hc; cases hc) (by rw [hp]; intro p hc; cases hc) (Or.inr (Or.inr ⟨h0, ?_⟩))
            rw [hsu]; exact node_add_new s _
          · next h0 =>
            simp only [Option.some.injEq, Prod.mk.injEq] at e
            obtain ⟨rfl, rfl⟩ := e
            refine leaf .bad (by intro _ _ _ hc; cases hc) (by rw [hp]; intro p hc; cases hc) (Or.inr (Or.inl ⟨h0, hm, ?_⟩))
            intro p hpp
            have : some p ∈ s.preds b := hpp
            rw [hp] at this; cases this
        | cons q qs =>
          have h0 : b ≠ 0 := by rintro rfl; rw [h.start.2] at hp; cases hp
          rw [hp] at e
          cases qs with
          | nil =>
            cases q with
            | none =>
              simp only [Option.some.injEq, Prod.mk.injEq] at e
              obtain ⟨rfl, rfl⟩ := e
              refine leaf .bad (by intro _ _ _ hc; cases hc) (by rw [hp]; intro p hc; cases hc) (Or.inr (Or.inl ⟨h0, hm, ?_⟩))
              intro p hpp
              have : some p ∈ s.preds b := hpp
              rw [hp] at this; simp at this
            | some p =>
              simp only [] at e
              cases hq : getValue fuel p v s with
              | none => rw [hq] at e; cases e
              | some r =>
                obtain ⟨y, t⟩ := r
                rw [hq] at e
                simp only [Option.some.injEq, Prod.mk.injEq] at e
                obtain ⟨rfl, rfl⟩ := e
                obtain ⟨i1, e1, a1⟩ := ih P p s y t h hq
                have hf : Fits t b v y := by
                  cases hb : t.arr b v with
                  | none => exact Or.inl hb
                  | some r =>
                    obtain ⟨r', h1, h2⟩ := e1.pass b v r p ha hb hm hp
                    rw [a1] at h1
                    cases h1
                    exact Or.inr ⟨r, hb, h2.symm⟩
                refine ⟨inv_setArr i1 hf (i1.arrLt _ _ _ a1) (fun _ => Or.inr (Or.inl ⟨h0, ?_, fun p' hp' => ?_⟩)),
                  e1.trans (evolve_setArr i1 hf fun _ p' _ hp' _ => ?_), setArr_same _ _ _ _⟩
                · show t.matured b = true
                  rw [e1.matured]; exact hm
                · have hp2 : some p' ∈ t.preds b := hp'
                  rw [e1.preds, hp] at hp2
                  simp only [List.mem_singleton, Option.some.injEq] at hp2
                  subst hp2
                  exact setArr_grow hf a1
                · rw [e1.preds, hp] at hp'
                  cases hp'
                  exact ⟨y, a1, rfl⟩
          | cons q2 qs =>
            have e2 : (match setPhiArgs (fun p s => getValue fuel p v s) s.used b v ((s.add (.phi b v [])).setArr b v s.used) with
                | none => none
                | some t => some (s.used, t.setArr b v s.used)) = some (x, s') := by
              cases q <;> exact e
            cases hq : setPhiArgs (fun p s => getValue fuel p v s) s.used b v ((s.add (.phi b v [])).setArr b v s.used) with
            | none => rw [hq] at e2; cases e2
            | some t =>
              rw [hq] at e2
              simp only [Option.some.injEq, Prod.mk.injEq] at e2
              obtain ⟨rfl, rfl⟩ := e2
              have i0 := inv_add_phi h (v := v) hm h0
              have hf0 : Fits (s.add (.phi b v [])) b v s.used := Or.inl ha
              have hb0 : Begin ((s.add (.phi b v [])).setArr b v s.used) b v s.used :=
                Or.inl ⟨[], by rw [hsu]; exact node_add_new s _⟩
              have i1 := inv_setArr i0 hf0 (Nat.lt_succ_self _) (fun _ => hb0)
              have v1 := (evolve_add h (.phi b v [])).trans (evolve_setArr i0 hf0 (fun _ p _ hp' => by
                have : s.preds b = [some p] := hp'
                rw [hp] at this; simp at this))
              obtain ⟨i2, v2⟩ := inv_setPhiArgs ih i1 (node_add_new s _) hm hq
              obtain ⟨r', h1, h2⟩ := v2.arr b v s.used (setArr_same _ _ _ _)
              have hf2 : Fits t b v s.used := Or.inr ⟨r', h1, h2⟩
              have hlt : s.used < t.used := Nat.lt_of_lt_of_le (Nat.lt_succ_self _) v2.used
              refine ⟨inv_setArr i2 hf2 hlt (fun _ => ?_), (v1.trans v2).trans (evolve_setArr i2 hf2 (fun hn => by rw [h1] at hn; cases hn)), setArr_same _ _ _ _⟩
              have hbt : Begin t b v r' := i2.facts b v r' (Or.inl ⟨hS, h1⟩)
              have lift : Begin t b v s.used := by
                rcases hbt with ⟨a, h3⟩ | ⟨h3, h4, h5⟩ | ⟨h3, h4⟩
                · exact Or.inl ⟨a, by rw [← h2]; exact h3⟩
                · exact Or.inr (Or.inl ⟨h3, h4, fun p hp => by
                    obtain ⟨r2, h6, h7⟩ := h5 p hp
                    exact ⟨r2, h6, h7.trans h2⟩⟩)
                · exact Or.inr (Or.inr ⟨h3, by rw [← h2]; exact h4⟩)
              rcases lift with h3 | h3 | h3
              · exact Or.inl h3
              · exact Or.inr (Or.inl (pass_grow (s := t) (s' := t.setArr b v s.used) rfl rfl rfl (fun _ _ _ hr => setArr_grow hf2 hr) h3))
              · exact Or.inr (Or.inr h3)
      | false =>
        rw [hm] at e
        simp only [Bool.false_eq_true, if_false, Option.some.injEq, Prod.mk.injEq] at e
        obtain ⟨rfl, rfl⟩ := e
        have hsn := h.new s.used (Nat.le_refl _)
        have grow : ∀ b' v' r, s.arr b' v' = some r → ∃ r', ((s.add (.phi b v [])).setArr b v s.used).arr b' v' = some r' ∧ s.skip r' = s.skip r :=
          fun b' v' r hr => setArr_grow (s := s.add (.phi b v [])) (Or.inl ha) hr
        refine ⟨?_, ?_, by simp [St.setArr]⟩
        · exact {
            idem := h.idem
            new := fun x hx => h.new x (Nat.le_of_succ_le hx)
            old := fun x hx => by
              show s.skip x < s.used + 1
              by_cases hlt : x < s.used
              · exact Nat.lt_succ_of_lt (h.old x hlt)
              · rw [h.new x (by omega)]; exact hx
            moved := fun x hx => by
              obtain ⟨b', v', a, e⟩ := h.moved x hx
              have hlt : x < s.used := Classical.byContradiction fun hc => hx (h.new x (by omega))
              exact ⟨b', v', a, (node_add_old s _ hlt).trans e⟩
            arrLt := fun b' v' r hr => by
              by_cases hc : b' = b ∧ v' = v
              · obtain ⟨rfl, rfl⟩ := hc
                have : ((s.add (.phi b' v' [])).setArr b' v' s.used).arr b' v' = some r := hr
                rw [setArr_same] at this
                cases this
                exact Nat.lt_succ_self _
              · have : ((s.add (.phi b v [])).setArr b v s.used).arr b' v' = some r := hr
                rw [setArr_other _ _ hc] at this
                exact Nat.lt_succ_of_lt (h.arrLt b' v' r this)
            factLt := fun b' v' r hr => Nat.lt_succ_of_lt (h.factLt b' v' r hr)
            argLt := fun x b' v' args hx e a ha => by
              by_cases hlt : x < s.used
              · have e' : (s.add (.phi b v [])).node x = .phi b' v' args := e
                rw [node_add_old s _ hlt] at e'
                exact Nat.lt_succ_of_lt (h.argLt x b' v' args hlt e' a ha)
              · have : x = s.used := by have : x < s.used + 1 := hx; omega
                subst this
                have e' : (s.add (.phi b v [])).node s.used = .phi b' v' args := e
                rw [node_add_new] at e'
                cases e'
                cases ha
            phiBlock := fun x b' v' args hx e => by
              by_cases hlt : x < s.used
              · have e' : (s.add (.phi b v [])).node x = .phi b' v' args := e
                rw [node_add_old s _ hlt] at e'
                exact h.phiBlock x b' v' args hlt e'
              · have : x = s.used := by have : x < s.used + 1 := hx; omega
                subst this
                have e' : (s.add (.phi b v [])).node s.used = .phi b' v' args := e
                rw [node_add_new] at e'
                cases e'
                rintro rfl
                rw [h.start.1] at hm; cases hm
            phis := fun x b' v' args hx e hs => by
              by_cases hlt : x < s.used
              · have e' : (s.add (.phi b v [])).node x = .phi b' v' args := e
                rw [node_add_old s _ hlt] at e'
                rcases h.phis x b' v' args hlt e' hs with ⟨h1, h2 | ⟨h2, h3⟩⟩ | h1
                · exact Or.inl ⟨h1, Or.inl h2⟩
                · refine Or.inl ⟨h1, Or.inr ⟨?_, h3⟩⟩
                  show x ∈ (if b' = b then s.used :: s.phis b else s.phis b')
                  split
                  · next hbb => subst hbb; exact List.mem_cons_of_mem _ h2
                  · exact h2
                · exact Or.inr (complete_grow (s := s) (s' := { (s.add (.phi b v [])).setArr b v s.used with phis := fun b' => if b' = b then s.used :: s.phis b else s.phis b' }) rfl rfl rfl grow h1)
              · have : x = s.used := by have : x < s.used + 1 := hx; omega
                subst this
                have e' : (s.add (.phi b v [])).node s.used = .phi b' v' args := e
                rw [node_add_new] at e'
                cases e'
                refine Or.inl ⟨rfl, Or.inr ⟨?_, hm⟩⟩
                show s.used ∈ (if b = b then s.used :: s.phis b else s.phis b)
                simp
            pend := fun x hx => by
              obtain ⟨h1, h2, b', v', h3, h4⟩ := h.pend x hx
              exact ⟨Nat.lt_succ_of_lt h1, h2, b', v', (node_add_old s _ h1).trans h3, h4⟩
            pendNodup := h.pendNodup
            chain := fun b' hb x hx => by
              have hx' : x ∈ (if b' = b then s.used :: s.phis b else s.phis b') := hx
              have hold : x ∈ s.phis b' → _ := fun hx => h.chain b' hb x hx
              have fin : x ∈ s.phis b' → x < s.used + 1 ∧ s.skip x = x ∧ ∃ v', (s.add (.phi b v [])).node x = .phi b' v' [] := by
                intro hx
                obtain ⟨h1, h2, v', h3⟩ := hold hx
                exact ⟨Nat.lt_succ_of_lt h1, h2, v', (node_add_old s _ h1).trans h3⟩
              split at hx'
              · next hbb =>
                subst hbb
                rcases List.mem_cons.1 hx' with rfl | hx'
                · exact ⟨Nat.lt_succ_self _, hsn, v, node_add_new s _⟩
                · exact fin hx'
              · exact fin hx'
            chainNodup := fun b' hb => by
              show (if b' = b then s.used :: s.phis b else s.phis b').Nodup
              split
              · next hbb =>
                subst hbb
                exact List.nodup_cons.2 ⟨fun hc => Nat.lt_irrefl _ (h.chain b' hb _ hc).1, h.chainNodup b' hb⟩
              · exact h.chainNodup b' hb
            facts := fun b' v' r hr => by
              have lift : r < s.used → Begin s b' v' r → Begin { (s.add (.phi b v [])).setArr b v s.used with phis := fun b' => if b' = b then s.used :: s.phis b else s.phis b' } b' v' r := by
                intro hlt hb
                rcases begin_add h (.phi b v []) hlt hb with h1 | h1 | h1
                · exact Or.inl h1
                · exact Or.inr (Or.inl (pass_grow (s := s.add (.phi b v [])) (s' := { (s.add (.phi b v [])).setArr b v s.used with phis := fun b' => if b' = b then s.used :: s.phis b else s.phis b' }) rfl rfl rfl grow h1))
                · exact Or.inr (Or.inr h1)
              rcases hr with ⟨hS', hr⟩ | hr
              · by_cases hc : b' = b ∧ v' = v
                · obtain ⟨rfl, rfl⟩ := hc
                  have : ((s.add (.phi b' v' [])).setArr b' v' s.used).arr b' v' = some r := hr
                  rw [setArr_same] at this
                  cases this
                  refine Or.inl ⟨[], ?_⟩
                  show (s.add (.phi b' v' [])).node (s.skip s.used) = _
                  rw [hsn]; exact node_add_new s _
                · have : ((s.add (.phi b v [])).setArr b v s.used).arr b' v' = some r := hr
                  rw [setArr_other _ _ hc] at this
                  exact lift (h.arrLt b' v' r this) (h.facts b' v' r (Or.inl ⟨hS', this⟩))
              · exact lift (h.factLt b' v' r hr) (h.facts b' v' r (Or.inr hr))
            setArr := fun b' v' hS' hc => by
              cases hr : s.arr b' v' with
              | none => exact h.setArr b' v' hS' hr
              | some r =>
                obtain ⟨r', h1, _⟩ := grow b' v' r hr
                have hc' : ((s.add (.phi b v [])).setArr b v s.used).arr b' v' = none := hc
                rw [h1] at hc'; cases hc'
            start := h.start }
        · exact {
            skip := h.idem
            arr := grow
            preds := rfl
            matured := rfl
            used := Nat.le_succ _
            kind := fun x hx => Or.inl (node_add_old s _ hx)
            pass := fun b' v' r p h1 h2 hm' hp' => by
              by_cases hc : b' = b ∧ v' = v
              · obtain ⟨rfl, rfl⟩ := hc
                rw [hm] at hm'; cases hm'
              · have : ((s.add (.phi b v [])).setArr b v s.used).arr b' v' = some r := h2
                rw [setArr_other _ _ hc] at this
                have this' : s.arr b' v' = some r := this
                rw [h1] at this'; cases this' }

end Verif.Model.SsaCons
