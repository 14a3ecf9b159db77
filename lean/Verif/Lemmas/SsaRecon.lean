import Verif.Lemmas.Reaching
import Verif.Lemmas.DomLT
import Verif.Model.SsaRecon
/-!
# The state of the reconstruction of SSA form
-/
namespace Verif.Lemmas.SsaRecon
open Verif.Spec Verif.Model.SsaRecon Verif.Lemmas.Reaching
open Verif.Model.Dom (Cfg set set_same set_other)

/-- the program and the definitions `defs` of the variable: a node is in one schedule at most, definitions and uses other than Phi nodes are
scheduled, no node defines two values of the variable, and an operand is a value -/
structure Good (P : Prog) (defs : List Nat) (uses : Nat → Prop) : Prop where
  node : ∀ b, ∀ n ∈ P.code b, P.block n = b ∧ n < P.next
  nodup : ∀ b, (P.code b).Nodup
  defLt : ∀ d ∈ defs, d < P.next
  defSched : ∀ d ∈ defs, P.skip d ∈ P.code (P.block d)
  inj : ∀ d ∈ defs, ∀ d' ∈ defs, P.skip d = P.skip d' → d = d'
  proj : ∀ b, ∀ n ∈ P.code b, n ∈ defs → P.skip n = n
  opLt : ∀ u, ∀ o ∈ P.ins u, o < P.next
  opVal : ∀ u, ∀ o ∈ P.ins u, ∀ d ∈ defs, o = P.skip d → o ∈ defs
  useLt : ∀ u, uses u → u < P.next
  useSched : ∀ u, uses u → P.isPhi u = false → u ∈ P.code (P.block u)
  phiArgs : ∀ u, uses u → P.isPhi u = true → P.ins u ≠ [] ∧ (P.ins u).length = (P.g.ins (P.block u)).length

section
variable {P : Prog} {defs : List Nat} {uses : Nat → Prop} {idf : Nat → Bool}

theorem definedBy_skip (G : Good P defs uses) {d : Nat} (hd : d ∈ defs) : definedBy P.skip defs (P.skip d) = some d := by
  unfold definedBy
  cases h : defs.find? fun d' => P.skip d' == P.skip d with
  | none => exact absurd (List.find?_eq_none.1 h d hd) (by simp)
  | some d' =>
    have h1 := List.find?_some h
    have h2 := List.mem_of_find?_eq_some h
    rw [G.inj d' h2 d hd (by simpa using h1)]

theorem definedBy_some {n d : Nat} (h : definedBy P.skip defs n = some d) : d ∈ defs ∧ P.skip d = n :=
  ⟨List.mem_of_find?_eq_some h, by simpa using List.find?_some h⟩

/-- the operands of a use after the reconstruction -/
def replaced (P : Prog) (defs : List Nat) (u x : Nat) : List Nat := (P.ins u).map fun o => if o ∈ defs then x else o

section
variable (P : Prog) (defs : List Nat) (idf : Nat → Bool) (φ : Nat → Option Nat)

/-- the definition at the end of a block, see `IsEnd` -/
abbrev AtEnd (b x : Nat) : Prop := IsEnd P.g P.code (definedBy P.skip defs) idf φ b x
abbrev AtStart (b x : Nat) : Prop := IsStart P.g P.code (definedBy P.skip defs) idf φ b x
abbrev AtPlace (b : Nat) (pre : List Nat) (x : Nat) : Prop := IsAt P.g P.code (definedBy P.skip defs) idf φ b pre x

/-- the operands of a Phi of the program -/
def OldArgs (l : List (Nat × Option Nat)) (r : List Nat) : Prop :=
  r.length = l.length ∧ ∀ (i o : Nat) (q : Option Nat), l[i]? = some (o, q) → ∃ y, r[i]? = some y ∧
    ((o ∈ defs ∧ ∃ q', q = some q' ∧ AtEnd P defs idf φ q' y) ∨ (o ∉ defs ∧ y = o))

/-- the operands of a new Phi -/
def NewArgs (l : List (Option Nat)) (r : List Nat) : Prop :=
  r.length = l.length ∧ ∀ (i : Nat) (q : Option Nat), l[i]? = some q → ∃ y q', r[i]? = some y ∧ q = some q' ∧ AtEnd P defs idf φ q' y

end

theorem OldArgs.mono {φ φ' : Nat → Option Nat} (he : PhiExt φ φ') {l : List (Nat × Option Nat)} {r : List Nat} (h : OldArgs P defs idf φ l r) :
    OldArgs P defs idf φ' l r := by
  refine ⟨h.1, fun i o q hi => ?_⟩
  obtain ⟨y, h1, h2⟩ := h.2 i o q hi
  refine ⟨y, h1, ?_⟩
  rcases h2 with ⟨h3, q', h4, h5⟩ | h2
  · exact Or.inl ⟨h3, q', h4, h5.mono he⟩
  · exact Or.inr h2

theorem NewArgs.mono {φ φ' : Nat → Option Nat} (he : PhiExt φ φ') {l : List (Option Nat)} {r : List Nat} (h : NewArgs P defs idf φ l r) :
    NewArgs P defs idf φ' l r := by
  refine ⟨h.1, fun i q hi => ?_⟩
  obtain ⟨y, q', h1, h2, h3⟩ := h.2 i q hi
  exact ⟨y, q', h1, h2, h3.mono he⟩

variable (P defs uses idf) in
/-- the state with the Phi nodes `φ`; the node `u0` was taken from the worklist -/
structure Inv (φ : Nat → Option Nat) (u0 : Option Nat) (s : St) : Prop where
  isDef : ∀ n, s.isDef n = true ↔ (n ∈ defs ∨ (∃ d ∈ defs, P.skip d = n) ∨ ∃ b, φ b = some n)
  defn : ∀ d ∈ defs, s.defn (P.skip d) = some d
  defnPhi : ∀ b x, φ b = some x → s.defn x = some x
  hasDef : ∀ b, s.hasDef b = true ↔ ((∃ d ∈ defs, P.block d = b) ∨ φ b ≠ none)
  front : s.front = idf
  use : ∀ n, s.use n = true ↔ uses n
  sched : ∀ b, s.sched b = (φ b).toList ++ P.code b
  old : ∀ n, n < P.next → s.block n = P.block n ∧ s.isPhi n = P.isPhi n
  phi : ∀ b x, φ b = some x → P.next ≤ x ∧ x < s.next ∧ s.block x = b ∧ s.isPhi x = true ∧ idf b = true
  next : P.next ≤ s.next
  newPhis : ∀ x, x ∈ s.newPhis ↔ ∃ b, φ b = some x
  last : ∀ b x, s.last b = some x → AtEnd P defs idf φ b x
  plain : ∀ u, u < P.next → P.isPhi u = false → (s.proc u = false ∧ s.args u = P.ins u) ∨
    (s.proc u = true ∧ uses u ∧ ∃ pre post x, P.code (P.block u) = pre ++ u :: post ∧ AtPlace P defs idf φ (P.block u) pre x ∧ s.args u = replaced P defs u x)
  oldPhi : ∀ u, u < P.next → P.isPhi u = true → (s.proc u = false ∧ s.args u = P.ins u) ∨
    (s.proc u = true ∧ uses u ∧ OldArgs P defs idf φ ((P.ins u).zip (P.g.ins (P.block u))) (s.args u))
  newPhi : ∀ b x, φ b = some x → (s.proc x = false ∧ s.args x = []) ∨ (s.proc x = true ∧ NewArgs P defs idf φ (P.g.ins b) (s.args x))
  cov : ∀ u, (uses u ∨ ∃ b, φ b = some u) → s.proc u = true ∨ u ∈ s.work ∨ u0 = some u
  done : ∀ b, s.blockProc b = true → ∀ u ∈ P.code b, uses u → P.isPhi u = false → s.proc u = true
  work : ∀ u ∈ s.work, uses u ∨ ∃ b, φ b = some u
  fresh : ∀ n, s.next ≤ n → s.proc n = false

/-- what was processed stays so -/
def Mono (s s' : St) : Prop := ∀ n, s.proc n = true → s'.proc n = true

variable {φ : Nat → Option Nat} {u0 : Option Nat} {s : St}

theorem code_isDef (G : Good P defs uses) (h : Inv P defs uses idf φ u0 s) {b n : Nat} (hn : n ∈ P.code b) :
    (if s.isDef n then s.defn n else none) = definedBy P.skip defs n := by
  by_cases hd : s.isDef n = true
  · rw [if_pos hd]
    have : ∃ d ∈ defs, P.skip d = n := by
      rcases (h.isDef n).1 hd with h1 | h1 | ⟨b', h1⟩
      · exact ⟨n, h1, G.proj b n hn h1⟩
      · exact h1
      · exact absurd (G.node b n hn).2 (Nat.not_lt_of_le (h.phi _ _ h1).1)
    obtain ⟨d, h1, h2⟩ := this
    rw [← h2, h.defn d h1, definedBy_skip G h1]
  · rw [if_neg hd]
    cases e : definedBy P.skip defs n with
    | none => rfl
    | some d =>
      obtain ⟨h1, h2⟩ := definedBy_some e
      exact absurd ((h.isDef n).2 (Or.inr (Or.inl ⟨d, h1, h2⟩))) hd

theorem isDef_iff (G : Good P defs uses) (h : Inv P defs uses idf φ u0 s) {b n : Nat} (hn : n ∈ P.code b) :
    s.isDef n = true ↔ definedBy P.skip defs n ≠ none := by
  have := code_isDef G h hn
  constructor
  · intro hd
    rw [if_pos hd] at this
    rcases (h.isDef n).1 hd with h1 | ⟨d, h1, h2⟩ | ⟨b', h1⟩
    · have h2 := definedBy_skip G h1
      rw [G.proj b n hn h1] at h2
      rw [h2]; simp
    · rw [← h2, definedBy_skip G h1]; simp
    · exact absurd (G.node b n hn).2 (Nat.not_lt_of_le (h.phi _ _ h1).1)
  · intro hd
    cases e : s.isDef n
    · rw [e] at this; exact absurd this.symm hd
    · rfl

/-- whether an operand of the program is a definition -/
theorem op_isDef (G : Good P defs uses) (h : Inv P defs uses idf φ u0 s) {u o : Nat} (ho : o ∈ P.ins u) : s.isDef o = true ↔ o ∈ defs := by
  rw [h.isDef]
  constructor
  · rintro (h1 | ⟨d, h1, h2⟩ | ⟨b, h1⟩)
    · exact h1
    · exact G.opVal u o ho d h1 h2.symm
    · exact absurd (G.opLt u o ho) (Nat.not_lt_of_le (h.phi _ _ h1).1)
  · exact Or.inl

/-! ## Steps -/

/-- a new Phi -/
theorem insertPhi_inv (G : Good P defs uses) (h : Inv P defs uses idf φ u0 s) {b x : Nat} {s' : St} (hb : φ b = none) (hf : idf b = true)
    (he : insertPhi b s = some (s', x)) :
    PhiExt φ (set φ b (some x)) ∧ Inv P defs uses idf (set φ b (some x)) u0 s' ∧ Mono s s' := by
  have hext : PhiExt φ (set φ b (some x)) := by
    intro c y hc
    by_cases e : c = b
    · rw [e, hb] at hc; cases hc
    · rw [set_other _ _ e]; exact hc
  have hlt : ∀ c y, φ c = some y → y ≠ s.next := fun c y hc => Nat.ne_of_lt (h.phi c y hc).2.1
  have hnext := h.next
  have hset : ∀ c y, set φ b (some s.next) c = some y ↔ (c = b ∧ y = s.next) ∨ (c ≠ b ∧ φ c = some y) := by
    intro c y
    by_cases e : c = b
    · simp [e, set_same, eq_comm]
    · simp [e, set_other]
  -- the state
  have key : x = s.next ∧ ∃ last, s' = { s with
      next := s.next + 1
      block := set s.block s.next b
      isPhi := set s.isPhi s.next true
      args := set s.args s.next []
      sched := set s.sched b (s.next :: s.sched b)
      newPhis := s.newPhis ++ [s.next]
      isDef := set s.isDef s.next true
      defn := set s.defn s.next (some s.next)
      hasDef := set s.hasDef b true
      last := last
      work := s.work ++ [s.next] } ∧ (∀ c y, last c = some y → (s.last c = some y ∧ c ≠ b) ∨ (c = b ∧ y = s.next ∧ s.hasDef b = false)) := by
    unfold insertPhi introduceDef at he
    simp only [set_same] at he
    have e1 : ∀ f : Nat → Bool, set (set f s.next true) s.next true = set f s.next true := by
      intro f; funext i; unfold Model.Dom.set; split <;> rfl
    by_cases hd : s.hasDef b = true
    · rw [if_pos hd] at he
      by_cases hp : s.blockProc b = true
      · rw [if_pos hp] at he; cases he
      · rw [if_neg hp] at he
        cases he
        refine ⟨rfl, Model.Dom.set s.last b none, ?_, ?_⟩
        · have : Model.Dom.set s.hasDef b true = s.hasDef := by funext i; unfold Model.Dom.set; split <;> simp_all
          rw [this, e1]
        · intro c y hc
          by_cases e : c = b
          · rw [e, set_same] at hc; cases hc
          · rw [set_other _ _ e] at hc; exact Or.inl ⟨hc, e⟩
    · rw [if_neg hd] at he
      cases he
      refine ⟨rfl, Model.Dom.set s.last b (some s.next), by rw [e1], ?_⟩
      intro c y hc
      by_cases e : c = b
      · rw [e, set_same] at hc; cases hc; exact Or.inr ⟨e, rfl, by simpa using hd⟩
      · rw [set_other _ _ e] at hc; exact Or.inl ⟨hc, e⟩
  obtain ⟨rfl, last, rfl, hlast⟩ := key
  refine ⟨hext, ?_, fun n hn => hn⟩
  constructor <;> dsimp only
  · intro n
    by_cases e : n = s.next
    · rw [e, set_same]
      exact iff_of_true rfl (Or.inr (Or.inr ⟨b, by rw [set_same]⟩))
    · rw [set_other _ _ e, h.isDef n]
      refine or_congr Iff.rfl (or_congr Iff.rfl ⟨fun ⟨c, hc⟩ => ⟨c, hext _ _ hc⟩, fun ⟨c, hc⟩ => ?_⟩)
      rcases (hset c n).1 hc with ⟨_, h2⟩ | ⟨_, h2⟩
      · exact absurd h2 e
      · exact ⟨c, h2⟩
  · intro d hd
    rw [set_other _ _ (Nat.ne_of_lt (Nat.lt_of_lt_of_le (G.node _ _ (G.defSched d hd)).2 hnext))]
    exact h.defn d hd
  · intro c y hc
    rcases (hset c y).1 hc with ⟨_, h2⟩ | ⟨_, h2⟩
    · rw [h2, set_same]
    · rw [set_other _ _ (hlt c y h2)]; exact h.defnPhi c y h2
  · intro c
    by_cases e : c = b
    · rw [e, set_same, set_same]; simp
    · rw [set_other _ _ e, set_other _ _ e]; exact h.hasDef c
  · exact h.front
  · exact h.use
  · intro c
    by_cases e : c = b
    · rw [e, set_same, set_same, h.sched b, hb]; rfl
    · rw [set_other _ _ e, set_other _ _ e]; exact h.sched c
  · intro n hn
    have : n ≠ s.next := by omega
    rw [set_other _ _ this, set_other _ _ this]; exact h.old n hn
  · intro c y hc
    rcases (hset c y).1 hc with ⟨h1, h2⟩ | ⟨_, h2⟩
    · rw [h2, h1, set_same, set_same]; exact ⟨hnext, Nat.lt_succ_self _, rfl, rfl, hf⟩
    · obtain ⟨a1, a2, a3, a4, a5⟩ := h.phi c y h2
      rw [set_other _ _ (hlt c y h2), set_other _ _ (hlt c y h2)]
      exact ⟨a1, by omega, a3, a4, a5⟩
  · omega
  · intro y
    rw [List.mem_append, List.mem_singleton, h.newPhis y]
    constructor
    · rintro (⟨c, hc⟩ | rfl)
      · exact ⟨c, hext _ _ hc⟩
      · exact ⟨b, set_same ..⟩
    · rintro ⟨c, hc⟩
      rcases (hset c y).1 hc with ⟨_, h2⟩ | ⟨_, h2⟩
      · exact Or.inr h2
      · exact Or.inl ⟨c, h2⟩
  · intro c y hc
    rcases hlast c y hc with ⟨h1, -⟩ | ⟨rfl, rfl, h2⟩
    · exact (h.last c y h1).mono hext
    · refine .phi ?_ hf (set_same ..)
      cases e : lastDef (definedBy P.skip defs) (P.code c) with
      | none => rfl
      | some d =>
        obtain ⟨n, hn, hd⟩ := lastDef_mem e
        obtain ⟨h3, h4⟩ := definedBy_some hd
        have h5 := (G.node _ _ (G.defSched d h3)).1
        rw [h4, (G.node _ _ hn).1] at h5
        have := (h.hasDef c).2 (Or.inl ⟨d, h3, h5.symm⟩)
        rw [h2] at this; cases this
  · intro u hu hp
    rw [set_other _ _ (by omega : u ≠ s.next)]
    rcases h.plain u hu hp with h1 | ⟨h00, h0, pre, post, x, h1, h2, h3⟩
    · exact Or.inl h1
    · exact Or.inr ⟨h00, h0, pre, post, x, h1, h2.mono hext, h3⟩
  · intro u hu hp
    rw [set_other _ _ (by omega : u ≠ s.next)]
    rcases h.oldPhi u hu hp with h1 | ⟨h00, h0, h1⟩
    · exact Or.inl h1
    · exact Or.inr ⟨h00, h0, h1.mono hext⟩
  · intro c y hc
    rcases (hset c y).1 hc with ⟨_, h2⟩ | ⟨_, h2⟩
    · rw [h2, set_same]
      exact Or.inl ⟨h.fresh _ (Nat.le_refl _), rfl⟩
    · rw [set_other _ _ (hlt c y h2)]
      rcases h.newPhi c y h2 with h1 | h1
      · exact Or.inl h1
      · exact Or.inr ⟨h1.1, h1.2.mono hext⟩
  · rintro u (hu | ⟨c, hc⟩)
    · rcases h.cov u (Or.inl hu) with h1 | h1 | h1
      · exact Or.inl h1
      · exact Or.inr (Or.inl (List.mem_append_left _ h1))
      · exact Or.inr (Or.inr h1)
    · rcases (hset c u).1 hc with ⟨_, h2⟩ | ⟨_, h2⟩
      · exact Or.inr (Or.inl (by simp [h2]))
      · rcases h.cov u (Or.inr ⟨c, h2⟩) with h1 | h1 | h1
        · exact Or.inl h1
        · exact Or.inr (Or.inl (List.mem_append_left _ h1))
        · exact Or.inr (Or.inr h1)
  · exact h.done
  · intro u hu
    rcases List.mem_append.1 hu with hu | hu
    · rcases h.work u hu with h1 | ⟨c, h1⟩
      · exact Or.inl h1
      · exact Or.inr ⟨c, hext _ _ h1⟩
    · exact Or.inr ⟨b, by rw [List.mem_singleton.1 hu, set_same]⟩
  · exact fun n hn => h.fresh n (by omega)

theorem nodup_split {α : Type} {u : α} : ∀ {l pre post pre' post' : List α}, l.Nodup → l = pre ++ u :: post → l = pre' ++ u :: post' → pre = pre'
  | [], pre, _, _, _, _, h, _ => by cases pre <;> cases h
  | a :: l, [], post, [], post', hn, h, h' => rfl
  | a :: l, [], post, c :: pre', post', hn, h, h' => by
    cases h; cases h'
    exact absurd (List.mem_append_right _ (List.mem_cons_self ..)) (List.nodup_cons.1 hn).1
  | a :: l, c :: pre, post, [], post', hn, h, h' => by
    cases h; cases h'
    exact absurd (List.mem_append_right _ (List.mem_cons_self ..)) (List.nodup_cons.1 hn).1
  | a :: l, c :: pre, post, c' :: pre', post', hn, h, h' => by
    simp only [List.cons_append, List.cons.injEq] at h h'
    rw [← h.1, ← h'.1, nodup_split (List.nodup_cons.1 hn).2 h.2 h'.2]

/-- a node that is the definition at some place is marked as definition -/
theorem atEnd_isDef (h : Inv P defs uses idf φ u0 s) {b x : Nat} (hx : AtEnd P defs idf φ b x) : s.isDef x = true := by
  induction hx with
  | own hd =>
    obtain ⟨n, -, hn⟩ := lastDef_mem hd
    exact (h.isDef _).2 (Or.inl (definedBy_some hn).1)
  | phi _ _ hp => exact (h.isDef _).2 (Or.inr (Or.inr ⟨_, hp⟩))
  | up _ _ _ _ ih => exact ih

theorem atPlace_isDef (h : Inv P defs uses idf φ u0 s) {b x : Nat} {pre : List Nat} (hx : AtPlace P defs idf φ b pre x) : s.isDef x = true := by
  rcases hx with hd | ⟨-, ⟨-, hp⟩ | ⟨-, p, -, hp⟩⟩
  · obtain ⟨n, -, hn⟩ := lastDef_mem hd
    exact (h.isDef _).2 (Or.inl (definedBy_some hn).1)
  · exact (h.isDef _).2 (Or.inr (Or.inr ⟨_, hp⟩))
  · exact atEnd_isDef h hp

theorem setOperands_inv (G : Good P defs uses) (h : Inv P defs uses idf φ u0 s) {u x b : Nat} {pre post : List Nat} (hu : uses u)
    (hp : P.isPhi u = false) (hc : P.code b = pre ++ u :: post) (hx : AtPlace P defs idf φ b pre x) :
    Inv P defs uses idf φ u0 (setOperands u x s) ∧ Mono s (setOperands u x s) ∧ (setOperands u x s).proc u = true := by
  have hub : P.block u = b := (G.node b u (by rw [hc]; simp)).1
  have hlt := G.useLt u hu
  have hargs : ((s.args u).map fun o => if s.isDef o then x else o) = replaced P defs u x := by
    rcases h.plain u hlt hp with ⟨-, h1⟩ | ⟨-, -, pre', post', x', h1, h2, h3⟩
    · rw [h1]
      refine List.map_congr_left fun o ho => ?_
      by_cases hd : o ∈ defs
      · rw [if_pos hd, if_pos ((op_isDef G h ho).2 hd)]
      · rw [if_neg hd, if_neg fun hn => hd ((op_isDef G h ho).1 hn)]
    · rw [hub] at h1 h2
      have := nodup_split (G.nodup b) hc h1
      subst this
      have := hx.det h2
      subst this
      rw [h3]
      unfold replaced
      rw [List.map_map]
      refine List.map_congr_left fun o ho => ?_
      show (if s.isDef (if o ∈ defs then x else o) = true then x else if o ∈ defs then x else o) = _
      by_cases hd : o ∈ defs
      · rw [if_pos hd, if_pos (atPlace_isDef h h2)]
      · rw [if_neg hd, if_neg fun hn => hd ((op_isDef G h ho).1 hn)]
  have hne : ∀ c y, φ c = some y → y ≠ u := fun c y hy => by have := (h.phi c y hy).1; omega
  have hproc : Mono s (setOperands u x s) := by
    intro n hn
    show Model.Dom.set s.proc u true n = true
    by_cases e : n = u
    · rw [e, set_same]
    · rw [set_other _ _ e]; exact hn
  refine ⟨?_, hproc, set_same ..⟩
  constructor
  · exact h.isDef
  · exact h.defn
  · exact h.defnPhi
  · exact h.hasDef
  · exact h.front
  · exact h.use
  · exact h.sched
  · exact h.old
  · exact h.phi
  · exact h.next
  · exact h.newPhis
  · exact h.last
  · intro v hv hvp
    unfold setOperands
    dsimp only
    by_cases e : v = u
    · subst e
      rw [set_same, set_same, hargs]
      exact Or.inr ⟨rfl, hu, pre, post, x, by rw [hub]; exact hc, by rw [hub]; exact hx, rfl⟩
    · rw [set_other _ _ e, set_other _ _ e]; exact h.plain v hv hvp
  · intro v hv hvp
    have e : v ≠ u := by rintro rfl; rw [hp] at hvp; cases hvp
    unfold setOperands
    dsimp only
    rw [set_other _ _ e, set_other _ _ e]; exact h.oldPhi v hv hvp
  · intro c y hy
    unfold setOperands
    dsimp only
    rw [set_other _ _ (hne c y hy), set_other _ _ (hne c y hy)]; exact h.newPhi c y hy
  · intro v hv
    rcases h.cov v hv with h1 | h1
    · exact Or.inl (hproc v h1)
    · exact Or.inr h1
  · exact fun b hb v hv hv2 hv3 => hproc v (h.done b hb v hv hv2 hv3)
  · exact h.work
  · intro n hn
    have e : n ≠ u := by
      have := h.next
      have hn' : s.next ≤ n := hn
      omega
    show Model.Dom.set s.proc u true n = false
    rw [set_other _ _ e]; exact h.fresh n hn

theorem setLast_inv (h : Inv P defs uses idf φ u0 s) {b : Nat} {o : Option Nat} (hx : ∀ x, o = some x → AtEnd P defs idf φ b x) :
    Inv P defs uses idf φ u0 { s with last := set s.last b o } := by
  refine { h with last := ?_ }
  intro c y hc
  by_cases e : c = b
  · rw [e] at hc ⊢
    exact hx y (by rw [← hc]; exact (set_same ..).symm)
  · exact h.last c y (by rw [← hc]; exact (set_other _ _ e).symm)

theorem setProc_inv (h : Inv P defs uses idf φ u0 s) {b : Nat} (hd : ∀ u ∈ P.code b, uses u → P.isPhi u = false → s.proc u = true) :
    Inv P defs uses idf φ u0 { s with blockProc := set s.blockProc b true } := by
  refine { h with done := ?_ }
  intro c hc
  by_cases e : c = b
  · rw [e]; exact hd
  · exact h.done c (by rw [← hc]; exact (set_other _ _ e).symm)

/-! ## The search -/

variable (P defs uses idf) in
/-- what the search at the end of a block does -/
def RecOk (rec : Nat → St → Option (St × Nat)) : Prop :=
  ∀ φ u0 b s s' x, Inv P defs uses idf φ u0 s → rec b s = some (s', x) →
    ∃ φ', PhiExt φ φ' ∧ Inv P defs uses idf φ' u0 s' ∧ Mono s s' ∧ AtEnd P defs idf φ' b x

theorem PhiExt.refl (φ : Nat → Option Nat) : PhiExt φ φ := fun _ _ h => h
theorem PhiExt.trans {φ φ' φ'' : Nat → Option Nat} (h : PhiExt φ φ') (h' : PhiExt φ' φ'') : PhiExt φ φ'' := fun b x hb => h' b x (h b x hb)
theorem Mono.trans {s s' s'' : St} (h : Mono s s') (h' : Mono s' s'') : Mono s s'' := fun n hn => h' n (h n hn)

theorem fromPreds_inv (G : Good P defs uses) {rec : Nat → St → Option (St × Nat)} (hr : RecOk P defs uses idf rec)
    (h : Inv P defs uses idf φ u0 s) {b x : Nat} {s' : St} (hb : φ b = none) (he : fromPreds P rec b s = some (s', x)) :
    ∃ φ', PhiExt φ φ' ∧ Inv P defs uses idf φ' u0 s' ∧ Mono s s' ∧ AtStart P defs idf φ' b x := by
  unfold fromPreds at he
  rw [h.front] at he
  by_cases hf : idf b = true
  · rw [if_pos hf] at he
    obtain ⟨h1, h2, h3⟩ := insertPhi_inv G h hb hf he
    exact ⟨_, h1, h2, h3, Or.inl ⟨hf, set_same ..⟩⟩
  · rw [if_neg hf] at he
    cases hi : P.g.idom b with
    | none => rw [hi] at he; cases he
    | some p =>
      rw [hi] at he
      obtain ⟨φ', h1, h2, h3, h4⟩ := hr φ u0 p s s' x h he
      exact ⟨φ', h1, h2, h3, Or.inr ⟨by simpa using hf, p, hi, h4⟩⟩

theorem processLoop_inv (G : Good P defs uses) {rec : Nat → St → Option (St × Nat)} (hr : RecOk P defs uses idf rec) {b : Nat} :
    ∀ ns pre φ d s s' d', P.code b = pre ++ ns → Inv P defs uses idf φ u0 s → (∀ x, d = some x → AtPlace P defs idf φ b pre x) →
      (d = none → lastDef (definedBy P.skip defs) pre = none ∧ φ b = none) → processLoop P rec b ns d s = some (s', d') →
      ∃ φ', PhiExt φ φ' ∧ Inv P defs uses idf φ' u0 s' ∧ Mono s s' ∧ (∀ x, d' = some x → AtPlace P defs idf φ' b (P.code b) x) ∧
        ∀ u ∈ ns, uses u → P.isPhi u = false → s'.proc u = true := by
  intro ns
  induction ns with
  | nil =>
    intro pre φ d s s' d' hc h hd _ he
    rw [List.append_nil] at hc
    cases he
    exact ⟨φ, PhiExt.refl _, h, fun _ hn => hn, by rw [hc]; exact hd, fun u hu => nomatch hu⟩
  | cons n ns ih =>
    intro pre φ d s s' d' hc h hd hd0 he
    have hn : n ∈ P.code b := by rw [hc]; simp
    have hc' : P.code b = (pre ++ [n]) ++ ns := by rw [hc]; simp
    have hlt := (G.node b n hn).2
    -- the definition after `n`
    have hnext : ∀ {φ : Nat → Option Nat} {s : St} {d : Option Nat}, Inv P defs uses idf φ u0 s →
        (∀ x, d = some x → AtPlace P defs idf φ b pre x) →
        (∀ x, (if s.isDef n then s.defn n else d) = some x → AtPlace P defs idf φ b (pre ++ [n]) x) := by
      intro φ s d h hd x hx
      have hcd := code_isDef G h hn
      unfold AtPlace IsAt
      rw [lastDef_append]
      by_cases hdn : s.isDef n = true
      · rw [if_pos hdn] at hx hcd
        rw [hx] at hcd
        left
        simp [lastDef, ← hcd]
      · rw [if_neg hdn] at hx hcd
        have : lastDef (definedBy P.skip defs) [n] = none := by simp [lastDef, ← hcd]
        rw [this]
        exact hd x hx
    have hnone : ∀ {s : St} {d : Option Nat}, Inv P defs uses idf φ u0 s → (if s.isDef n then s.defn n else d) = none →
        d = none ∧ definedBy P.skip defs n = none := by
      intro s d h hx
      by_cases hdn : s.isDef n = true
      · have hcd := code_isDef G h hn
        rw [if_pos hdn] at hx hcd
        rw [hx] at hcd
        exact absurd hcd.symm ((isDef_iff G h hn).1 hdn)
      · have hcd := code_isDef G h hn
        rw [if_neg hdn] at hx hcd
        exact ⟨hx, hcd.symm⟩
    have hold := (h.old n hlt).2
    unfold processLoop at he
    by_cases hu : (s.use n && !s.isPhi n) = true
    · rw [if_pos hu] at he
      simp only [Bool.and_eq_true, Bool.not_eq_true', hold] at hu
      have hun := (h.use n).1 hu.1
      cases d with
      | some x =>
        obtain ⟨h1, h2, h3⟩ := setOperands_inv G h hun hu.2 hc (hd x rfl)
        obtain ⟨φ', g1, g2, g3, g4, g5⟩ := ih (pre ++ [n]) φ _ _ s' d' hc' h1 (hnext h hd) (fun e => absurd (hnone h e).1 (by simp)) he
        refine ⟨φ', g1, g2, h2.trans g3, g4, fun v hv hv2 hv3 => ?_⟩
        rcases List.mem_cons.1 hv with e | hv
        · rw [e]; exact g3 n h3
        · exact g5 v hv hv2 hv3
      | none =>
        dsimp only at he
        obtain ⟨hl, hb⟩ := hd0 rfl
        cases hf : fromPreds P rec b s with
        | none => rw [hf] at he; cases he
        | some r =>
          obtain ⟨s1, x⟩ := r
          rw [hf] at he
          dsimp only at he
          obtain ⟨φ1, e1, e2, e3, e4⟩ := fromPreds_inv G hr h hb hf
          have hat : AtPlace P defs idf φ1 b pre x := Or.inr ⟨hl, e4⟩
          obtain ⟨h1, h2, h3⟩ := setOperands_inv G e2 hun hu.2 hc hat
          have hsome : ∀ y, some x = some y → AtPlace P defs idf φ1 b pre y := fun y hy => by cases hy; exact hat
          have hnn : (if s1.isDef n = true then s1.defn n else some x) ≠ none := by
            intro e
            by_cases hdn : s1.isDef n = true
            · have hcd := code_isDef G e2 hn
              rw [if_pos hdn] at e hcd
              rw [e] at hcd
              exact absurd hcd.symm ((isDef_iff G e2 hn).1 hdn)
            · rw [if_neg hdn] at e; cases e
          obtain ⟨φ', g1, g2, g3, g4, g5⟩ := ih (pre ++ [n]) φ1 _ _ s' d' hc' h1 (hnext e2 hsome) (fun e => absurd e hnn) he
          refine ⟨φ', PhiExt.trans e1 g1, g2, (e3.trans h2).trans g3, g4, fun v hv hv2 hv3 => ?_⟩
          rcases List.mem_cons.1 hv with e | hv
          · rw [e]; exact g3 n h3
          · exact g5 v hv hv2 hv3
    · rw [if_neg hu] at he
      obtain ⟨φ', g1, g2, g3, g4, g5⟩ := ih (pre ++ [n]) φ _ _ s' d' hc' h (hnext h hd) (fun e => by
        obtain ⟨e1, e2⟩ := hnone h e
        refine ⟨?_, (hd0 e1).2⟩
        rw [lastDef_append, (hd0 e1).1]
        simp [lastDef, e2]) he
      refine ⟨φ', g1, g2, g3, g4, fun v hv hv2 hv3 => ?_⟩
      rcases List.mem_cons.1 hv with e | hv
      · rw [e] at hv2 hv3
        exact absurd (by rw [(h.use n).2 hv2, hold, hv3]; rfl) hu
      · exact g5 v hv hv2 hv3

theorem processBlock_inv (G : Good P defs uses) {rec : Nat → St → Option (St × Nat)} (hr : RecOk P defs uses idf rec)
    (h : Inv P defs uses idf φ u0 s) {b : Nat} {s' : St} (he : processBlock P rec b s = some s') :
    ∃ φ', PhiExt φ φ' ∧ Inv P defs uses idf φ' u0 s' ∧ Mono s s' ∧ ∀ u ∈ P.code b, uses u → P.isPhi u = false → s'.proc u = true := by
  unfold processBlock at he
  split at he
  case isFalse => cases he
  case isTrue =>
  rw [h.sched b] at he
  have key : ∃ d, processLoop P rec b (P.code b) d s = processLoop P rec b ((φ b).toList ++ P.code b) none s ∧
      (∀ x, d = some x → AtPlace P defs idf φ b [] x) ∧ (d = none → φ b = none) := by
    cases hb : φ b with
    | none => exact ⟨none, rfl, (fun _ e => absurd e (by simp)), fun _ => rfl⟩
    | some x =>
      refine ⟨some x, ?_, fun y e => ?_, fun e => nomatch e⟩
      · have hx := h.phi b x hb
        have h1 : s.use x = false := by
          cases e : s.use x
          · rfl
          · have := G.useLt x ((h.use x).1 e)
            omega
        have h2 : s.isDef x = true := (h.isDef x).2 (Or.inr (Or.inr ⟨b, hb⟩))
        show _ = processLoop P rec b (x :: P.code b) none s
        conv => rhs; unfold processLoop
        rw [h1, h2, h.defnPhi b x hb]
        rfl
      · cases e
        exact Or.inr ⟨rfl, Or.inl ⟨(h.phi b x hb).2.2.2.2, hb⟩⟩
  obtain ⟨d, hd1, hd2, hd3⟩ := key
  rw [← hd1] at he
  cases hl : processLoop P rec b (P.code b) d s with
  | none => rw [hl] at he; cases he
  | some r =>
    obtain ⟨s1, d'⟩ := r
    rw [hl] at he
    cases he
    obtain ⟨φ', g1, g2, g3, g4, g5⟩ := processLoop_inv G hr (P.code b) [] φ d s s1 d' rfl h hd2 (fun e => ⟨rfl, hd3 e⟩) hl
    refine ⟨φ', g1, ?_, g3, g5⟩
    exact setLast_inv (setProc_inv g2 g5) fun x hx => isEnd_of_isAt (g4 x hx)

theorem lastIn_eq {l : List Nat} (hd : ∀ n ∈ l, s.isDef n = true → s.defn n ≠ none) :
    lastIn s l = lastDef (fun n => if s.isDef n then s.defn n else none) l := by
  unfold lastIn lastDef
  rw [← List.head?_reverse, ← List.filterMap_reverse]
  have hd' : ∀ n ∈ l.reverse, s.isDef n = true → s.defn n ≠ none := fun n hn => hd n (List.mem_reverse.1 hn)
  generalize l.reverse = m at hd'
  induction m with
  | nil => rfl
  | cons n m ih =>
    by_cases h : s.isDef n = true
    · rw [List.find?_cons_of_pos h]
      cases e : s.defn n with
      | none => exact absurd e (hd' n (by simp) h)
      | some x => rw [List.filterMap_cons]; simp [h, e]
    · rw [List.find?_cons_of_neg h, List.filterMap_cons, if_neg h]
      exact ih fun n hn => hd' n (List.mem_cons_of_mem _ hn)

theorem lastDef_congr {f g : Nat → Option Nat} : ∀ {l : List Nat}, (∀ n ∈ l, f n = g n) → lastDef f l = lastDef g l
  | [], _ => rfl
  | n :: l, h => by
    have ih := lastDef_congr (l := l) fun m hm => h m (List.mem_cons_of_mem _ hm)
    have e : ∀ f : Nat → Option Nat, lastDef f (n :: l) = (lastDef f l).or (lastDef f [n]) := fun f => lastDef_append f [n] l
    rw [e, e, ih]
    simp [lastDef, h n (by simp)]

theorem searchBody_inv (G : Good P defs uses) {rec : Nat → St → Option (St × Nat)} (hr : RecOk P defs uses idf rec) :
    RecOk P defs uses idf (searchBody P rec) := by
  intro φ u0 b s s' x h he
  unfold searchBody at he
  cases hl : s.last b with
  | some y =>
    rw [hl] at he
    cases he
    exact ⟨φ, PhiExt.refl _, h, fun _ hn => hn, h.last b x hl⟩
  | none =>
    rw [hl] at he
    dsimp only at he
    by_cases hd : s.hasDef b = true
    · rw [if_pos hd] at he
      by_cases hu : s.blockUse b = true
      · rw [if_pos hu] at he
        by_cases hp : s.blockProc b = true
        · rw [if_pos hp] at he
          dsimp only at he
          rw [hl] at he
          cases he
        · rw [if_neg hp] at he
          cases hb : processBlock P rec b s with
          | none => rw [hb] at he; cases he
          | some s1 =>
            rw [hb] at he
            dsimp only at he
            obtain ⟨φ', g1, g2, g3, -⟩ := processBlock_inv G hr h hb
            cases hx : s1.last b with
            | none => rw [hx] at he; cases he
            | some y =>
              rw [hx] at he
              cases he
              exact ⟨φ', g1, g2, g3, g2.last b x hx⟩
      · rw [if_neg hu] at he
        have hdef : ∀ n ∈ s.sched b, s.isDef n = true → s.defn n ≠ none := by
          intro n hn hdn
          rw [h.sched b] at hn
          rcases List.mem_append.1 hn with hn | hn
          · cases hb : φ b with
            | none => rw [hb] at hn; cases hn
            | some y =>
              rw [hb] at hn
              simp at hn
              rw [hn, h.defnPhi b y hb]; simp
          · have h1 := code_isDef G h hn
            rw [if_pos hdn] at h1
            rw [h1]
            exact (isDef_iff G h hn).1 hdn
        have heq := lastIn_eq hdef
        have hend : ∀ y, lastIn s (s.sched b) = some y → AtEnd P defs idf φ b y := by
          intro y hy
          rw [heq, h.sched b, lastDef_append] at hy
          have hcode : lastDef (fun n => if s.isDef n then s.defn n else none) (P.code b) = lastDef (definedBy P.skip defs) (P.code b) := by
            exact lastDef_congr fun n hn => code_isDef G h hn
          rw [hcode] at hy
          cases hc : lastDef (definedBy P.skip defs) (P.code b) with
          | some z =>
            rw [hc] at hy
            cases hy
            exact .own hc
          | none =>
            rw [hc] at hy
            cases hb : φ b with
            | none => rw [hb] at hy; cases hy
            | some z =>
              rw [hb] at hy
              have : s.isDef z = true := (h.isDef z).2 (Or.inr (Or.inr ⟨b, hb⟩))
              simp [lastDef, this, h.defnPhi b z hb] at hy
              subst hy
              exact .phi hc (h.phi b z hb).2.2.2.2 hb
        cases hx : lastIn s (s.sched b) with
        | none => rw [hx] at he; cases he
        | some y =>
          rw [hx] at he
          cases he
          exact ⟨φ, PhiExt.refl _, setLast_inv h fun z hz => by cases hz; exact hend x hx, fun _ hn => hn, hend x hx⟩
    · rw [if_neg hd] at he
      have hno : φ b = none := by
        cases e : φ b with
        | none => rfl
        | some y => exact absurd ((h.hasDef b).2 (Or.inr (by rw [e]; simp))) hd
      have hcode : lastDef (definedBy P.skip defs) (P.code b) = none := by
        cases e : lastDef (definedBy P.skip defs) (P.code b) with
        | none => rfl
        | some d =>
          obtain ⟨n, hn, hdn⟩ := lastDef_mem e
          obtain ⟨h3, h4⟩ := definedBy_some hdn
          have h5 := (G.node _ _ (G.defSched d h3)).1
          rw [h4, (G.node _ _ hn).1] at h5
          exact absurd ((h.hasDef b).2 (Or.inl ⟨d, h3, h5.symm⟩)) hd
      cases hf : fromPreds P rec b s with
      | none => rw [hf] at he; cases he
      | some r =>
        obtain ⟨s1, y⟩ := r
        rw [hf] at he
        cases he
        obtain ⟨φ', g1, g2, g3, g4⟩ := fromPreds_inv G hr h hno hf
        have hend : AtEnd P defs idf φ' b x := isEnd_of_isAt (Or.inr ⟨hcode, g4⟩)
        exact ⟨φ', g1, setLast_inv g2 fun z hz => by cases hz; exact hend, g3, hend⟩

theorem searchEnd_inv (G : Good P defs uses) : ∀ fuel, RecOk P defs uses idf (searchEnd P fuel)
  | 0 => fun _ _ _ _ _ _ _ he => nomatch he
  | fuel + 1 => searchBody_inv G (searchEnd_inv G fuel)

theorem search_inv (G : Good P defs uses) : RecOk P defs uses idf (search P) := searchEnd_inv G _

/-! ## The loop over the worklist -/

theorem Inv.finish {u : Nat} (h : Inv P defs uses idf φ (some u) s) (hp : s.proc u = true) : Inv P defs uses idf φ none s := by
  refine { h with cov := fun v hv => ?_ }
  rcases h.cov v hv with h1 | h1 | h1
  · exact Or.inl h1
  · exact Or.inr (Or.inl h1)
  · cases h1; exact Or.inl hp

theorem searchAt_inv (G : Good P defs uses) {u : Nat} (h : Inv P defs uses idf φ (some u) s) (hu : uses u) (hp : P.isPhi u = false) {s' : St}
    (he : searchAt P u s = some s') : ∃ φ', PhiExt φ φ' ∧ Inv P defs uses idf φ' none s' := by
  have hlt := G.useLt u hu
  have hs := G.useSched u hu hp
  unfold searchAt at he
  rw [(h.old u hlt).1] at he
  by_cases hb : s.blockProc (P.block u) = true
  · rw [if_pos hb] at he
    cases he
    exact ⟨φ, PhiExt.refl _, h.finish (h.done _ hb u hs hu hp)⟩
  · rw [if_neg hb] at he
    by_cases hd : s.hasDef (P.block u) = true
    · rw [if_pos hd] at he
      obtain ⟨φ', g1, g2, -, g4⟩ := processBlock_inv G (search_inv G) h he
      exact ⟨φ', g1, g2.finish (g4 u hs hu hp)⟩
    · rw [if_neg hd] at he
      have hno : φ (P.block u) = none := by
        cases e : φ (P.block u) with
        | none => rfl
        | some y => exact absurd ((h.hasDef _).2 (Or.inr (by rw [e]; simp))) hd
      cases hf : fromPreds P (search P) (P.block u) s with
      | none => rw [hf] at he; cases he
      | some r =>
        obtain ⟨s1, x⟩ := r
        rw [hf] at he
        cases he
        obtain ⟨φ', g1, g2, g3, g4⟩ := fromPreds_inv G (search_inv G) h hno hf
        obtain ⟨pre, post, hc⟩ := List.append_of_mem hs
        have hpre : lastDef (definedBy P.skip defs) pre = none := by
          cases e : lastDef (definedBy P.skip defs) pre with
          | none => rfl
          | some d =>
            obtain ⟨n, hn, hdn⟩ := lastDef_mem e
            obtain ⟨h3, h4⟩ := definedBy_some hdn
            have h5 := (G.node _ _ (G.defSched d h3)).1
            rw [h4, (G.node (P.block u) n (by rw [hc]; simp [hn])).1] at h5
            exact absurd ((h.hasDef _).2 (Or.inl ⟨d, h3, h5.symm⟩)) hd
        obtain ⟨a1, -, a3⟩ := setOperands_inv G g2 hu hp hc (x := x) (Or.inr ⟨hpre, g4⟩)
        exact ⟨φ', g1, a1.finish a3⟩

theorem fixOld_inv (G : Good P defs uses) : ∀ l φ s s' r, (∀ o q, (o, q) ∈ l → ∃ u, o ∈ P.ins u) → Inv P defs uses idf φ u0 s →
    fixOld P l s = some (s', r) → ∃ φ', PhiExt φ φ' ∧ Inv P defs uses idf φ' u0 s' ∧ OldArgs P defs idf φ' l r := by
  intro l
  induction l with
  | nil =>
    intro φ s s' r _ h he
    cases he
    exact ⟨φ, PhiExt.refl _, h, rfl, fun i o q hi => by simp at hi⟩
  | cons a l ih =>
    intro φ s s' r hl h he
    obtain ⟨o, q⟩ := a
    obtain ⟨u, ho⟩ := hl o q (by simp)
    have hl' : ∀ o q, (o, q) ∈ l → ∃ u, o ∈ P.ins u := fun o q hm => hl o q (List.mem_cons_of_mem _ hm)
    unfold fixOld at he
    by_cases hd : s.isDef o = true
    · rw [if_pos hd] at he
      have hod := (op_isDef G h ho).1 hd
      cases q with
      | none => cases he
      | some q =>
        dsimp only at he
        cases hs : search P q s with
        | none => rw [hs] at he; cases he
        | some r1 =>
          obtain ⟨s1, x⟩ := r1
          rw [hs] at he
          dsimp only at he
          obtain ⟨φ1, g1, g2, -, g4⟩ := search_inv G φ u0 q s s1 x h hs
          cases hf : fixOld P l s1 with
          | none => rw [hf] at he; cases he
          | some r2 =>
            rw [hf] at he
            cases he
            obtain ⟨φ2, e1, e2, e3, e4⟩ := ih φ1 s1 _ _ hl' g2 hf
            refine ⟨φ2, PhiExt.trans g1 e1, e2, by simp [e3], fun i o' q' hi => ?_⟩
            cases i with
            | zero =>
              simp only [List.getElem?_cons_zero, Option.some.injEq, Prod.mk.injEq] at hi ⊢
              obtain ⟨rfl, rfl⟩ := hi
              exact ⟨x, rfl, Or.inl ⟨hod, q, rfl, g4.mono e1⟩⟩
            | succ i => exact e4 i o' q' hi
    · rw [if_neg hd] at he
      have hod : o ∉ defs := fun hn => hd ((op_isDef G h ho).2 hn)
      cases hf : fixOld P l s with
      | none => rw [hf] at he; cases he
      | some r2 =>
        rw [hf] at he
        cases he
        obtain ⟨φ2, e1, e2, e3, e4⟩ := ih φ s _ _ hl' h hf
        refine ⟨φ2, e1, e2, by simp [e3], fun i o' q' hi => ?_⟩
        cases i with
        | zero =>
          simp only [List.getElem?_cons_zero, Option.some.injEq, Prod.mk.injEq] at hi ⊢
          obtain ⟨rfl, rfl⟩ := hi
          exact ⟨o, rfl, Or.inr ⟨hod, rfl⟩⟩
        | succ i => exact e4 i o' q' hi

theorem fixNew_inv (G : Good P defs uses) : ∀ l φ s s' r, Inv P defs uses idf φ u0 s →
    fixNew P l s = some (s', r) → ∃ φ', PhiExt φ φ' ∧ Inv P defs uses idf φ' u0 s' ∧ NewArgs P defs idf φ' l r := by
  intro l
  induction l with
  | nil =>
    intro φ s s' r h he
    cases he
    exact ⟨φ, PhiExt.refl _, h, rfl, fun i q hi => by simp at hi⟩
  | cons q l ih =>
    intro φ s s' r h he
    cases q with
    | none => cases he
    | some q =>
      unfold fixNew at he
      cases hs : search P q s with
      | none => rw [hs] at he; cases he
      | some r1 =>
        obtain ⟨s1, x⟩ := r1
        rw [hs] at he
        dsimp only at he
        obtain ⟨φ1, g1, g2, -, g4⟩ := search_inv G φ u0 q s s1 x h hs
        cases hf : fixNew P l s1 with
        | none => rw [hf] at he; cases he
        | some r2 =>
          rw [hf] at he
          cases he
          obtain ⟨φ2, e1, e2, e3, e4⟩ := ih φ1 s1 _ _ g2 hf
          refine ⟨φ2, PhiExt.trans g1 e1, e2, by simp [e3], fun i q' hi => ?_⟩
          cases i with
          | zero =>
            simp only [List.getElem?_cons_zero, Option.some.injEq] at hi ⊢
            exact ⟨x, q, rfl, hi.symm, g4.mono e1⟩
          | succ i => exact e4 i q' hi

/-- the operands of one Phi are set -/
theorem setPhi_inv {u : Nat} {args : List Nat} (h : Inv P defs uses idf φ (some u) s) (hlt : u < s.next)
    (hold : u < P.next → P.isPhi u = true ∧ uses u ∧ OldArgs P defs idf φ ((P.ins u).zip (P.g.ins (P.block u))) args)
    (hnew : ∀ b, φ b = some u → NewArgs P defs idf φ (P.g.ins b) args) :
    Inv P defs uses idf φ none { s with args := set s.args u args, proc := set s.proc u true } := by
  have hproc : ∀ n, s.proc n = true → Model.Dom.set s.proc u true n = true := by
    intro n hn
    by_cases e : n = u
    · rw [e, set_same]
    · rw [set_other _ _ e]; exact hn
  have h' : Inv P defs uses idf φ (some u) { s with args := set s.args u args, proc := set s.proc u true } := by
    constructor
    · exact h.isDef
    · exact h.defn
    · exact h.defnPhi
    · exact h.hasDef
    · exact h.front
    · exact h.use
    · exact h.sched
    · exact h.old
    · exact h.phi
    · exact h.next
    · exact h.newPhis
    · exact h.last
    · intro v hv hvp
      dsimp only
      have e : v ≠ u := by rintro rfl; rw [(hold hv).1] at hvp; cases hvp
      rw [set_other _ _ e, set_other _ _ e]; exact h.plain v hv hvp
    · intro v hv hvp
      dsimp only
      by_cases e : v = u
      · subst e
        rw [set_same, set_same]
        exact Or.inr ⟨rfl, (hold hv).2⟩
      · rw [set_other _ _ e, set_other _ _ e]; exact h.oldPhi v hv hvp
    · intro b x hb
      dsimp only
      by_cases e : x = u
      · subst e
        rw [set_same, set_same]
        exact Or.inr ⟨rfl, hnew b hb⟩
      · rw [set_other _ _ e, set_other _ _ e]; exact h.newPhi b x hb
    · intro v hv
      rcases h.cov v hv with h1 | h1
      · exact Or.inl (hproc v h1)
      · exact Or.inr h1
    · exact fun b hb v hv hv2 hv3 => hproc v (h.done b hb v hv hv2 hv3)
    · exact h.work
    · intro n hn
      dsimp only at hn ⊢
      rw [set_other _ _ (by omega : n ≠ u)]; exact h.fresh n hn
  exact h'.finish (set_same ..)

theorem fixPhi_inv (G : Good P defs uses) {u : Nat} (h : Inv P defs uses idf φ (some u) s) (hu : (uses u ∧ P.isPhi u = true) ∨ ∃ b, φ b = some u)
    (hp : s.proc u = false) {s' : St} (he : fixPhi P u s = some s') : ∃ φ', PhiExt φ φ' ∧ Inv P defs uses idf φ' none s' := by
  unfold fixPhi at he
  rcases hu with ⟨hu, hphi⟩ | ⟨b, hb⟩
  · have hlt := G.useLt u hu
    have hargs : s.args u = P.ins u := by
      rcases h.oldPhi u hlt hphi with h1 | h1
      · exact h1.2
      · rw [hp] at h1; exact absurd h1.1 (by simp)
    rw [hargs, (h.old u hlt).1, if_pos (G.phiArgs u hu hphi).1] at he
    cases hf : fixOld P ((P.ins u).zip (P.g.ins (P.block u))) s with
    | none => rw [hf] at he; cases he
    | some r =>
      obtain ⟨s1, args⟩ := r
      rw [hf] at he
      cases he
      obtain ⟨φ', g1, g2, g3⟩ := fixOld_inv G _ φ s s1 args (fun o q hm => ⟨u, (List.of_mem_zip hm).1⟩) h hf
      refine ⟨φ', g1, setPhi_inv g2 (Nat.lt_of_lt_of_le hlt g2.next) (fun _ => ⟨hphi, hu, g3⟩) fun b hb => ?_⟩
      have := (g2.phi b u hb).1
      omega
  · have hargs : s.args u = [] := by
      rcases h.newPhi b u hb with h1 | h1
      · exact h1.2
      · rw [hp] at h1; exact absurd h1.1 (by simp)
    obtain ⟨a1, a2, a3, -⟩ := h.phi b u hb
    rw [hargs, a3, if_neg (by simp)] at he
    cases hf : fixNew P (P.g.ins b) s with
    | none => rw [hf] at he; cases he
    | some r =>
      obtain ⟨s1, args⟩ := r
      rw [hf] at he
      cases he
      obtain ⟨φ', g1, g2, g3⟩ := fixNew_inv G _ φ s s1 args h hf
      refine ⟨φ', g1, setPhi_inv g2 (g2.phi b u (g1 b u hb)).2.1 (fun hn => by omega) fun b' hb' => ?_⟩
      have h1 := (g2.phi b u (g1 b u hb)).2.2.1
      have h2 := (g2.phi b' u hb').2.2.1
      rw [← h2, h1]; exact g3

theorem mainLoop_inv (G : Good P defs uses) : ∀ fuel φ s s', Inv P defs uses idf φ none s → mainLoop P fuel s = some s' →
    ∃ φ', PhiExt φ φ' ∧ Inv P defs uses idf φ' none s' ∧ s'.work = [] := by
  intro fuel
  induction fuel with
  | zero =>
    intro φ s s' h he
    unfold mainLoop at he
    split at he
    case isTrue hw => cases he; exact ⟨φ, PhiExt.refl _, h, hw⟩
    case isFalse => cases he
  | succ fuel ih =>
    intro φ s s' h he
    unfold mainLoop at he
    cases hw : s.work with
    | nil => rw [hw] at he; cases he; exact ⟨φ, PhiExt.refl _, h, hw⟩
    | cons u w =>
      rw [hw] at he
      dsimp only at he
      have hu := h.work u (by rw [hw]; simp)
      have h1 : Inv P defs uses idf φ (some u) { s with work := w } := by
        refine { h with cov := fun v hv => ?_, work := fun v hv => h.work v (by rw [hw]; exact List.mem_cons_of_mem _ hv) }
        rcases h.cov v hv with h1 | h1 | h1
        · exact Or.inl h1
        · rw [hw] at h1
          rcases List.mem_cons.1 h1 with h1 | h1
          · exact Or.inr (Or.inr (by rw [h1]))
          · exact Or.inr (Or.inl h1)
        · cases h1
      by_cases hp : s.proc u = true
      · rw [if_pos hp] at he
        exact ih φ _ s' (h1.finish hp) he
      · rw [if_neg hp] at he
        have hp' : s.proc u = false := by simpa using hp
        have key : ∀ s1, (if s.isPhi u = true then fixPhi P u { s with work := w } else searchAt P u { s with work := w }) = some s1 →
            ∃ φ', PhiExt φ φ' ∧ Inv P defs uses idf φ' none s1 := by
          intro s1 hs1
          by_cases hphi : s.isPhi u = true
          · rw [if_pos hphi] at hs1
            refine fixPhi_inv G h1 ?_ hp' hs1
            rcases hu with hu | hu
            · exact Or.inl ⟨hu, by rw [← (h.old u (G.useLt u hu)).2]; exact hphi⟩
            · exact Or.inr hu
          · rw [if_neg hphi] at hs1
            rcases hu with hu | ⟨b, hb⟩
            · exact searchAt_inv G h1 hu (by rw [← (h.old u (G.useLt u hu)).2]; simpa using hphi) hs1
            · exact absurd (h.phi b u hb).2.2.2.1 hphi
        split at he
        · cases he
        · rename_i s1 hs1
          obtain ⟨φ1, g1, g2⟩ := key s1 hs1
          obtain ⟨φ', e1, e2, e3⟩ := ih φ1 s1 s' g2 he
          exact ⟨φ', PhiExt.trans g1 e1, e2, e3⟩

end

end Verif.Lemmas.SsaRecon
