import Verif.Model.DcaGraph
import Verif.Lemmas.Dca
import Verif.Props.ConstBitsGraph
/-!
# Lemmas on don't care bits of graphs
-/
namespace Verif.Lemmas.Dca
open Verif.Spec Verif.Model Verif.Model.Dca Verif.Model.IrOpt Verif.Model.ConstBits

/-! ## The work list -/

/-- the node has bits that matter -/
def Has (st : Care) : Key → Prop
  | .data m n => st.data m n ≠ 0#m.bits
  | .block b => st.block b = true
  | .x x => st.x x = true
  | .other n => st.other n = true

/-- the call has been obeyed -/
def Meets (st : Care) : Call → Prop
  | .mask m n c => ∀ i, c.getLsbD i = true → (st.data m n).getLsbD i = true
  | .whole (.data m n) => ∀ i, i < m.bits → (st.data m n).getLsbD i = true
  | .whole (.block b) => st.block b = true
  | .whole (.x x) => st.x x = true
  | .whole (.other n) => st.other n = true

/-- nothing is left to do -/
def Closed (G : Graph) (s : State) (st : Care) : Prop := ∀ k, Has st k → ∀ c ∈ transfer G s st k, Meets st c

/-- the care of the node is the same -/
def Same (st st' : Care) : Key → Prop
  | .data m n => st.data m n = st'.data m n
  | .block b => st.block b = st'.block b
  | .x x => st.x x = st'.x x
  | .other n => st.other n = st'.other n

structure Below (st st' : Care) : Prop where
  data : ∀ m n i, (st.data m n).getLsbD i = true → (st'.data m n).getLsbD i = true
  block : ∀ b, st.block b = true → st'.block b = true
  x : ∀ b, st.x b = true → st'.x b = true
  other : ∀ b, st.other b = true → st'.other b = true

theorem Below.refl (st : Care) : Below st st := ⟨fun _ _ _ h => h, fun _ h => h, fun _ h => h, fun _ h => h⟩

theorem Below.trans {a b c : Care} (h : Below a b) (h' : Below b c) : Below a c :=
  ⟨fun m n i hi => h'.data m n i (h.data m n i hi), fun b hb => h'.block b (h.block b hb), fun b hb => h'.x b (h.x b hb),
    fun b hb => h'.other b (h.other b hb)⟩

theorem Meets.mono {a b : Care} (h : Below a b) {c : Call} (hc : Meets a c) : Meets b c := by
  match c with
  | .mask m n c => exact fun i hi => h.data m n i (hc i hi)
  | .whole (.data m n) => exact fun i hi => h.data m n i (hc i hi)
  | .whole (.block b) => exact h.block b hc
  | .whole (.x x) => exact h.x x hc
  | .whole (.other n) => exact h.other n hc

theorem Same.refl (st : Care) (k : Key) : Same st st k := by cases k <;> rfl

theorem Same.trans {a b c : Care} {k : Key} (h : Same a b k) (h' : Same b c k) : Same a c k := by
  cases k <;> exact Eq.trans h h'

theorem has_same {a b : Care} {k : Key} (h : Same a b k) (hb : Has b k) : Has a k := by
  cases k with
  | data m n => exact fun e => hb (by rw [← e]; exact Eq.symm h)
  | block b => exact Eq.trans h hb
  | x b => exact Eq.trans h hb
  | other b => exact Eq.trans h hb

theorem transfer_same {G : Graph} {s : State} {a b : Care} {k : Key} (h : Same a b k) : transfer G s a k = transfer G s b k := by
  cases k with
  | data m n =>
    have : a.data m n = b.data m n := h
    simp only [transfer]
    rw [this]
  | block b => rfl
  | x b => rfl
  | other b => rfl

/-- how much may still be set -/
def unset (st : Care) : Key → Nat
  | .data m n => ((List.range m.bits).filter fun i => !(st.data m n).getLsbD i).length
  | .block b => if st.block b then 0 else 1
  | .x b => if st.x b then 0 else 1
  | .other b => if st.other b then 0 else 1

def room (U : List Key) (st : Care) : Nat := (U.map (unset st)).sum

theorem filter_length_le {α : Type} {p q : α → Bool} (l : List α) (h : ∀ x ∈ l, p x = true → q x = true) :
    (l.filter p).length ≤ (l.filter q).length := by
  induction l with
  | nil => exact Nat.le_refl _
  | cons a l ih =>
    have := ih fun x hx => h x (List.mem_cons_of_mem _ hx)
    have ha := h a List.mem_cons_self
    rw [List.filter_cons, List.filter_cons]
    cases hp : p a <;> cases hq : q a <;> simp_all
    omega

theorem filter_length_lt {α : Type} {p q : α → Bool} (l : List α) (h : ∀ x ∈ l, p x = true → q x = true) {y : α} (hy : y ∈ l) (hp : p y = false)
    (hq : q y = true) : (l.filter p).length < (l.filter q).length := by
  induction l with
  | nil => cases hy
  | cons a l ih =>
    have h1 : ∀ x ∈ l, p x = true → q x = true := fun x hx => h x (List.mem_cons_of_mem _ hx)
    have h2 := filter_length_le l h1
    have ha := h a List.mem_cons_self
    rw [List.filter_cons, List.filter_cons]
    rcases List.mem_cons.1 hy with e | hy
    · subst e; rw [hp, hq]; simp; omega
    · have := ih h1 hy
      cases hpa : p a <;> cases hqa : q a <;> simp_all
      omega

theorem unset_mono {a b : Care} (h : Below a b) (k : Key) : unset b k ≤ unset a k := by
  cases k with
  | data m n =>
    refine filter_length_le _ fun i _ hi => ?_
    cases ha : (a.data m n).getLsbD i
    · rfl
    · simp only [h.data m n i ha] at hi; cases hi
  | block n => have := h.block n; unfold unset; cases ha : a.block n <;> cases hb : b.block n <;> simp_all
  | x n => have := h.x n; unfold unset; cases ha : a.x n <;> cases hb : b.x n <;> simp_all
  | other n => have := h.other n; unfold unset; cases ha : a.other n <;> cases hb : b.other n <;> simp_all

theorem room_mono {a b : Care} (h : Below a b) (U : List Key) : room U b ≤ room U a := by
  unfold room
  induction U with
  | nil => exact Nat.le_refl _
  | cons k U ih => have := unset_mono h k; simp only [List.map_cons, List.sum_cons]; omega

theorem room_lt {a b : Care} (h : Below a b) {U : List Key} {k : Key} (hk : k ∈ U) (hlt : unset b k < unset a k) : room U b < room U a := by
  unfold room
  induction U with
  | nil => cases hk
  | cons j U ih =>
    have h1 := unset_mono h j
    have h2 := room_mono h U
    unfold room at h2
    simp only [List.map_cons, List.sum_cons]
    rcases List.mem_cons.1 hk with e | hk
    · subst e; omega
    · have := ih hk; omega

/-- what a call of `care_for` does -/
structure Step (U : List Key) (k : Key) (w w' : Work) : Prop where
  below : Below w.st w'.st
  wl : ∀ j, j ∈ w.wl → j ∈ w'.wl
  same : ∀ j, Same w.st w'.st j ∨ j ∈ w'.wl
  new : ∀ j, j ∈ w'.wl → j ∈ w.wl ∨ j = k
  room : k ∈ U → room U w'.st + w'.wl.length ≤ room U w.st + w.wl.length

theorem Step.refl (U : List Key) (k : Key) (w : Work) : Step U k w w :=
  ⟨Below.refl _, fun _ h => h, fun _ => Or.inl (Same.refl _ _), fun _ h => Or.inl h, fun _ => Nat.le_refl _⟩

theorem setData_self (st : Care) (m : IMode) (n : Nat) (c : BitVec m.bits) : (st.setData m n c).data m n = c := by
  simp [Care.setData]

theorem setData_ne (st : Care) (m : IMode) (n : Nat) (c : BitVec m.bits) {m' : IMode} {n' : Nat} (h : ¬ (m' = m ∧ n' = n)) :
    (st.setData m n c).data m' n' = st.data m' n' := by
  simp only [Care.setData, dif_neg h]

theorem careMask_spec (U : List Key) (w : Work) (m : IMode) (n : Nat) (c : BitVec m.bits) :
    Step U (.data m n) w (careMask w m n c) ∧ ∀ i, c.getLsbD i = true → ((careMask w m n c).st.data m n).getLsbD i = true := by
  unfold careMask
  by_cases h : c ||| w.st.data m n ≠ w.st.data m n
  · rw [if_pos h]
    have hb : Below w.st (w.st.setData m n (c ||| w.st.data m n)) := by
      refine ⟨fun m' n' i hi => ?_, fun _ h => h, fun _ h => h, fun _ h => h⟩
      by_cases e : m' = m ∧ n' = n
      · obtain ⟨rfl, rfl⟩ := e
        rw [setData_self, BitVec.getLsbD_or, hi, Bool.or_true]
      · rw [setData_ne _ _ _ _ e]; exact hi
    refine ⟨⟨hb, fun j hj => List.mem_append_left _ hj, fun j => ?_, fun j hj => ?_, fun hk => ?_⟩, fun i hi => ?_⟩
    · cases j with
      | data m' n' =>
        by_cases e : m' = m ∧ n' = n
        · obtain ⟨rfl, rfl⟩ := e
          exact Or.inr (List.mem_append_right _ (List.mem_singleton.2 rfl))
        · exact Or.inl (setData_ne _ _ _ _ e).symm
      | block b => exact Or.inl rfl
      | x b => exact Or.inl rfl
      | other b => exact Or.inl rfl
    · rcases List.mem_append.1 hj with hj | hj
      · exact Or.inl hj
      · exact Or.inr (List.mem_singleton.1 hj)
    · have : Dca.room U (w.st.setData m n (c ||| w.st.data m n)) < Dca.room U w.st := by
        refine room_lt hb hk ?_
        have hex : ∃ i, i < m.bits ∧ (w.st.data m n).getLsbD i = false ∧ c.getLsbD i = true := by
          refine Classical.byContradiction fun hn => h (getLsbD_ext fun i hi => ?_)
          rw [BitVec.getLsbD_or]
          cases h1 : c.getLsbD i <;> cases h2 : (w.st.data m n).getLsbD i <;> try rfl
          exact absurd ⟨i, hi, h2, h1⟩ hn
        obtain ⟨i, hi, h1, h2⟩ := hex
        unfold unset
        simp only [setData_self]
        refine filter_length_lt _ (fun j _ hj => ?_) (List.mem_range.2 hi) ?_ ?_
        · rw [BitVec.getLsbD_or] at hj
          cases h3 : (w.st.data m n).getLsbD j
          · rfl
          · simp [h3] at hj
        · simp [h2]
        · simp [h1]
      simp only [List.length_append, List.length_singleton]
      omega
    · rw [setData_self, BitVec.getLsbD_or, hi, Bool.true_or]
  · rw [if_neg h]
    refine ⟨Step.refl _ _ _, fun i hi => ?_⟩
    have h := Classical.not_not.1 h
    rw [← h, BitVec.getLsbD_or, hi, Bool.true_or]

theorem careFor_spec (U : List Key) (w : Work) (c : Call) : Step U c.key w (careFor w c) ∧ Meets (careFor w c).st c := by
  match c with
  | .mask m n c => exact careMask_spec U w m n c
  | .whole (.data m n) =>
    have := careMask_spec U w m n (BitVec.allOnes m.bits)
    exact ⟨this.1, fun i hi => this.2 i (by simp [hi])⟩
  | .whole (.block b) =>
    simp only [careFor]
    by_cases h : w.st.block b = true
    · rw [if_pos h]; exact ⟨Step.refl _ _ _, h⟩
    · rw [if_neg h]
      have hb : Below w.st { w.st with block := fun b' => if b' = b then true else w.st.block b' } := by
        refine ⟨fun _ _ _ h => h, fun b' hb => ?_, fun _ h => h, fun _ h => h⟩
        dsimp only; split
        · rfl
        · exact hb
      refine ⟨⟨hb, fun j hj => List.mem_append_left _ hj, fun j => ?_, fun j hj => ?_, fun hk => ?_⟩, by simp [Meets]⟩
      · cases j with
        | block b' =>
          by_cases e : b' = b
          · subst e; exact Or.inr (List.mem_append_right _ (List.mem_singleton.2 rfl))
          · exact Or.inl (by simp [Same, e])
        | _ => exact Or.inl rfl
      · rcases List.mem_append.1 hj with hj | hj
        · exact Or.inl hj
        · exact Or.inr (List.mem_singleton.1 hj)
      · have := room_lt hb hk (by simp [unset, Call.key, h])
        dsimp only at this
        simp only [List.length_append, List.length_singleton]
        omega
  | .whole (.x b) =>
    simp only [careFor]
    by_cases h : w.st.x b = true
    · rw [if_pos h]; exact ⟨Step.refl _ _ _, h⟩
    · rw [if_neg h]
      have hb : Below w.st { w.st with x := fun b' => if b' = b then true else w.st.x b' } := by
        refine ⟨fun _ _ _ h => h, fun _ h => h, fun b' hb => ?_, fun _ h => h⟩
        dsimp only; split
        · rfl
        · exact hb
      refine ⟨⟨hb, fun j hj => List.mem_append_left _ hj, fun j => ?_, fun j hj => ?_, fun hk => ?_⟩, by simp [Meets]⟩
      · cases j with
        | x b' =>
          by_cases e : b' = b
          · subst e; exact Or.inr (List.mem_append_right _ (List.mem_singleton.2 rfl))
          · exact Or.inl (by simp [Same, e])
        | _ => exact Or.inl rfl
      · rcases List.mem_append.1 hj with hj | hj
        · exact Or.inl hj
        · exact Or.inr (List.mem_singleton.1 hj)
      · have := room_lt hb hk (by simp [unset, Call.key, h])
        dsimp only at this
        simp only [List.length_append, List.length_singleton]
        omega
  | .whole (.other b) =>
    simp only [careFor]
    by_cases h : w.st.other b = true
    · rw [if_pos h]; exact ⟨Step.refl _ _ _, h⟩
    · rw [if_neg h]
      have hb : Below w.st { w.st with other := fun b' => if b' = b then true else w.st.other b' } := by
        refine ⟨fun _ _ _ h => h, fun _ h => h, fun _ h => h, fun b' hb => ?_⟩
        dsimp only; split
        · rfl
        · exact hb
      refine ⟨⟨hb, fun j hj => List.mem_append_left _ hj, fun j => ?_, fun j hj => ?_, fun hk => ?_⟩, by simp [Meets]⟩
      · cases j with
        | other b' =>
          by_cases e : b' = b
          · subst e; exact Or.inr (List.mem_append_right _ (List.mem_singleton.2 rfl))
          · exact Or.inl (by simp [Same, e])
        | _ => exact Or.inl rfl
      · rcases List.mem_append.1 hj with hj | hj
        · exact Or.inl hj
        · exact Or.inr (List.mem_singleton.1 hj)
      · have := room_lt hb hk (by simp [unset, Call.key, h])
        dsimp only at this
        simp only [List.length_append, List.length_singleton]
        omega

/-- several calls -/
structure Steps (U : List Key) (cs : List Call) (w w' : Work) : Prop where
  below : Below w.st w'.st
  wl : ∀ j, j ∈ w.wl → j ∈ w'.wl
  same : ∀ j, Same w.st w'.st j ∨ j ∈ w'.wl
  new : ∀ j, j ∈ w'.wl → j ∈ w.wl ∨ ∃ c ∈ cs, c.key = j
  meets : ∀ c ∈ cs, Meets w'.st c
  room : (∀ c ∈ cs, c.key ∈ U) → Dca.room U w'.st + w'.wl.length ≤ Dca.room U w.st + w.wl.length

theorem foldl_spec (U : List Key) : ∀ (cs : List Call) (w : Work), Steps U cs w (cs.foldl careFor w) := by
  intro cs
  induction cs with
  | nil => exact fun w => ⟨Below.refl _, fun _ h => h, fun _ => Or.inl (Same.refl _ _), fun _ h => Or.inl h, (fun _ h => nomatch h), fun _ => Nat.le_refl _⟩
  | cons c cs ih =>
    intro w
    obtain ⟨h1, h2⟩ := careFor_spec U w c
    have h3 := ih (careFor w c)
    rw [List.foldl_cons]
    refine ⟨h1.below.trans h3.below, fun j hj => h3.wl j (h1.wl j hj), fun j => ?_, fun j hj => ?_, fun d hd => ?_, fun hU => ?_⟩
    · rcases h3.same j with h | h
      · rcases h1.same j with h' | h'
        · exact Or.inl (h'.trans h)
        · exact Or.inr (h3.wl j h')
      · exact Or.inr h
    · rcases h3.new j hj with h | ⟨d, hd, e⟩
      · rcases h1.new j h with h | h
        · exact Or.inl h
        · exact Or.inr ⟨c, List.mem_cons_self, h.symm⟩
      · exact Or.inr ⟨d, List.mem_cons_of_mem _ hd, e⟩
    · rcases List.mem_cons.1 hd with e | hd
      · subst e; exact h2.mono h3.below
      · exact h3.meets d hd
    · exact Nat.le_trans (h3.room fun d hd => hU d (List.mem_cons_of_mem _ hd)) (h1.room (hU c List.mem_cons_self))

variable {G : Graph} {s : State}

/-- every node waits in the work list, or has no bits that matter, or is done -/
def LoopInv (G : Graph) (s : State) (w : Work) : Prop := ∀ k, k ∈ w.wl ∨ (Has w.st k → ∀ c ∈ transfer G s w.st k, Meets w.st c)

theorem loop_spec : ∀ (fuel : Nat) (w : Work) (st : Care), LoopInv G s w → loop G s fuel w = some st → Closed G s st ∧ Below w.st st := by
  intro fuel
  induction fuel with
  | zero =>
    rintro ⟨st0, wl⟩ st hinv h
    cases wl with
    | nil =>
      simp only [loop, Option.some.injEq] at h
      subst h
      exact ⟨fun k => (hinv k).resolve_left (fun h => nomatch h), Below.refl _⟩
    | cons k wl => simp [loop] at h
  | succ fuel ih =>
    rintro ⟨st0, wl⟩ st hinv h
    cases wl with
    | nil =>
      simp only [loop, Option.some.injEq] at h
      subst h
      exact ⟨fun k => (hinv k).resolve_left (fun h => nomatch h), Below.refl _⟩
    | cons k wl =>
      simp only [loop] at h
      have hs := foldl_spec [] (transfer G s st0 k) ⟨st0, wl⟩
      have hinv' : LoopInv G s ((transfer G s st0 k).foldl careFor ⟨st0, wl⟩) := by
        intro j
        rcases hs.same j with hsame | hin
        · by_cases hj : j ∈ wl
          · exact Or.inl (hs.wl j hj)
          · right
            intro hhas c hc
            rw [← transfer_same hsame] at hc
            by_cases e : j = k
            · subst e; exact hs.meets c hc
            · rcases hinv j with h | h
              · rcases List.mem_cons.1 h with h | h
                · exact absurd h e
                · exact absurd h hj
              · exact (h (has_same hsame hhas) c hc).mono hs.below
        · exact Or.inl hin
      obtain ⟨h1, h2⟩ := ih _ st hinv' h
      exact ⟨h1, hs.below.trans h2⟩

theorem loop_total {U : List Key} (hU : ∀ k ∈ U, ∀ st, ∀ c ∈ transfer G s st k, c.key ∈ U) : ∀ (fuel : Nat) (w : Work), (∀ k ∈ w.wl, k ∈ U) →
    room U w.st + w.wl.length ≤ fuel → ∃ st, loop G s fuel w = some st := by
  intro fuel
  induction fuel with
  | zero =>
    rintro ⟨st0, wl⟩ _ hf
    cases wl with
    | nil => exact ⟨st0, rfl⟩
    | cons k wl => simp at hf
  | succ fuel ih =>
    rintro ⟨st0, wl⟩ hwl hf
    cases wl with
    | nil => exact ⟨st0, rfl⟩
    | cons k wl =>
      simp only [loop]
      have hs := foldl_spec U (transfer G s st0 k) ⟨st0, wl⟩
      have hk := hU k (hwl k List.mem_cons_self) st0
      refine ih _ (fun j hj => ?_) ?_
      · rcases hs.new j hj with h | ⟨c, hc, e⟩
        · exact hwl j (List.mem_cons_of_mem _ h)
        · exact e ▸ hk c hc
      · have := hs.room hk
        simp only [List.length_cons] at hf this
        omega

/-! ## The nodes that are asked for -/

theorem demands_uses {info : (m : IMode) → Expr m → Option (BitInfo m.bits)} {m : IMode} (e : Expr m) (care : BitVec m.bits) :
    ∀ d ∈ demands info e care, e.Uses d.m d.n := by
  intro d hd
  induction e with
  | leaf m n =>
    rw [demands] at hd
    split at hd
    · cases hd
    · rw [List.mem_singleton.1 hd]; exact ⟨rfl, rfl⟩
  | const v =>
    rw [demands] at hd
    split at hd <;> cases hd
  | minus a ih =>
    rw [demands] at hd
    split at hd
    · cases hd
    exact ih _ hd
  | not a ih =>
    rw [demands] at hd
    split at hd
    · cases hd
    exact ih _ hd
  | conv m a ih =>
    rw [demands] at hd
    split at hd
    · cases hd
    exact ih _ hd
  | add a b iha ihb =>
    rw [demands] at hd
    split at hd
    · cases hd
    exact (List.mem_append.1 hd).imp (iha _) (ihb _)
  | mul a b iha ihb =>
    rw [demands] at hd
    split at hd
    · cases hd
    exact (List.mem_append.1 hd).imp (iha _) (ihb _)
  | div a b iha ihb =>
    rw [demands] at hd
    split at hd
    · cases hd
    exact (List.mem_append.1 hd).imp (iha _) (ihb _)
  | mod a b iha ihb =>
    rw [demands] at hd
    split at hd
    · cases hd
    exact (List.mem_append.1 hd).imp (iha _) (ihb _)
  | eor a b iha ihb =>
    rw [demands] at hd
    split at hd
    · cases hd
    exact (List.mem_append.1 hd).imp (iha _) (ihb _)
  | shl a b iha ihb =>
    rw [demands] at hd
    split at hd
    · cases hd
    exact (List.mem_append.1 hd).imp (iha _) (ihb _)
  | shr a b iha ihb =>
    rw [demands] at hd
    split at hd
    · cases hd
    exact (List.mem_append.1 hd).imp (iha _) (ihb _)
  | shrs a b iha ihb =>
    rw [demands] at hd
    split at hd
    · cases hd
    exact (List.mem_append.1 hd).imp (iha _) (ihb _)
  | sub a b iha ihb =>
    rw [demands] at hd
    split at hd
    · cases hd
    exact ((List.mem_append.1 hd).imp (ihb _) (iha _)).symm
  | confirm v r b iha ihb =>
    rw [demands] at hd
    split at hd
    · cases hd
    exact (List.mem_append.1 hd).imp (iha _) (ihb _)
  | and a b iha ihb =>
    rw [demands] at hd
    split at hd
    · cases hd
    split at hd
    · exact (List.mem_append.1 hd).imp (iha _) (ihb _)
    · exact (List.mem_append.1 hd).imp (iha _) (ihb _)
  | or a b iha ihb =>
    rw [demands] at hd
    split at hd
    · cases hd
    split at hd
    · exact (List.mem_append.1 hd).imp (iha _) (ihb _)
    · exact (List.mem_append.1 hd).imp (iha _) (ihb _)
  | cmp r a b iha ihb =>
    rw [demands] at hd
    split at hd
    · cases hd
    simp only [List.mem_append] at hd
    rcases hd with (h | h) | h | h
    · exact Or.inl (iha _ h)
    · exact Or.inr (ihb _ h)
    · exact Or.inl (iha _ h)
    · exact Or.inr (ihb _ h)
  | mux s f t ihs ihf iht =>
    rw [demands] at hd
    split at hd
    · cases hd
    simp only [List.mem_append] at hd
    rcases hd with (h | h) | h
    · exact Or.inr (Or.inr (iht _ h))
    · exact Or.inr (Or.inl (ihf _ h))
    · exact Or.inl (ihs _ h)

theorem transfer_operand {st : Care} {k : Key} : ∀ c ∈ transfer G s st k, Operand G c.key k := by
  intro c hc
  cases k with
  | block b =>
    obtain ⟨x, hx, rfl⟩ := List.mem_map.1 hc
    exact ⟨x, hx, rfl⟩
  | x x =>
    simp only [transfer, List.mem_cons, List.mem_append, List.mem_map, List.not_mem_nil, or_false] at hc
    rcases hc with rfl | ⟨k, hk, rfl⟩ | rfl
    · exact Or.inl rfl
    · exact Or.inr hk
    · exact Or.inl rfl
  | data m n =>
    simp only [transfer, Operand] at hc ⊢
    cases hn : G.node m n with
    | phi args =>
      simp only [hn, List.mem_append, List.mem_map, List.mem_singleton] at hc ⊢
      rcases hc with ⟨a, ha, rfl⟩ | rfl
      · exact Or.inl ⟨a, ha, rfl⟩
      · exact Or.inr rfl
    | op e =>
      simp only [hn, List.mem_map] at hc ⊢
      obtain ⟨d, hd, rfl⟩ := hc
      exact ⟨d.m, d.n, demands_uses e _ d hd, rfl⟩
    | input =>
      simp only [hn, List.mem_map] at hc ⊢
      obtain ⟨k, hk, rfl⟩ := hc
      exact hk
  | other n =>
    obtain ⟨k, hk, rfl⟩ := List.mem_map.1 hc
    exact hk

/-! ## One node -/

theorem atom_ok {m : IMode} {e : Expr m} {env env' : Env} (ha : Atom e) (h : e.Ok env) : e.Ok env' := by
  rcases ha with ⟨n, rfl⟩ | ⟨v, rfl⟩ <;> exact h

theorem whole_eval {care : Care} {m : IMode} {e : Expr m} {env env' : Env} (ha : Atom e) (h : care.Whole e)
    (he : ∀ k j, AgreeOn (care.data k j) (env k j) (env' k j)) : e.eval env = e.eval env' := by
  rcases ha with ⟨n, rfl⟩ | ⟨v, rfl⟩
  · have := he m n
    rw [h n rfl] at this
    exact AgreeOn.all this
  · rfl

theorem flat_ok {info : (m : IMode) → Expr m → Option (BitInfo m.bits)} {care : Care} {m : IMode} {e : Expr m} {env env' : Env} (hf : Flat e)
    (hcov : Covered info e) (hinfo : InfoRight info env e) (hw : ∀ v r b, e = .confirm v r b → care.Whole v ∧ care.Whole b) (hok : e.Ok env) {c : BitVec m.bits}
    (hc : c ≠ 0#m.bits) (hd : ∀ d ∈ demands info e c, AgreeOn d.care (env d.m d.n) (env' d.m d.n))
    (he : ∀ k j, AgreeOn (care.data k j) (env k j) (env' k j)) : e.Ok env' := by
  cases e with
  | leaf m n => exact hok
  | const v => exact hok
  | minus a => exact atom_ok (e := a) hf hok
  | not a => exact atom_ok (e := a) hf hok
  | add a b => exact ⟨atom_ok hf.1 hok.1, atom_ok hf.2 hok.2⟩
  | sub a b => exact ⟨atom_ok hf.1 hok.1, atom_ok hf.2 hok.2⟩
  | mul a b => exact ⟨atom_ok hf.1 hok.1, atom_ok hf.2 hok.2⟩
  | div a b =>
    refine ⟨atom_ok hf.1 hok.1, atom_ok hf.2 hok.2.1, ?_⟩
    rw [demands, if_neg hc] at hd
    have := AgreeOn.all (demands_sound b (hinfo.part fun _ _ h => Or.inr h) hok.2.1 hcov.2 _ (mem_right hd))
    rw [← this]
    exact hok.2.2
  | mod a b =>
    refine ⟨atom_ok hf.1 hok.1, atom_ok hf.2 hok.2.1, ?_⟩
    rw [demands, if_neg hc] at hd
    have := AgreeOn.all (demands_sound b (hinfo.part fun _ _ h => Or.inr h) hok.2.1 hcov.2 _ (mem_right hd))
    rw [← this]
    exact hok.2.2
  | and a b => exact ⟨atom_ok hf.1 hok.1, atom_ok hf.2 hok.2⟩
  | or a b => exact ⟨atom_ok hf.1 hok.1, atom_ok hf.2 hok.2⟩
  | eor a b => exact ⟨atom_ok hf.1 hok.1, atom_ok hf.2 hok.2⟩
  | shl a b => exact ⟨atom_ok hf.1 hok.1, atom_ok hf.2 hok.2.1, hok.2.2⟩
  | shr a b => exact ⟨atom_ok hf.1 hok.1, atom_ok hf.2 hok.2.1, hok.2.2⟩
  | shrs a b => exact ⟨atom_ok hf.1 hok.1, atom_ok hf.2 hok.2.1, hok.2.2⟩
  | conv m a => exact ⟨atom_ok hf hok.1, hok.2⟩
  | cmp r a b => exact ⟨atom_ok hf.1 hok.1, atom_ok hf.2 hok.2⟩
  | mux s f t => exact ⟨atom_ok hf.1 hok.1, atom_ok hf.2.1 hok.2.1, atom_ok hf.2.2 hok.2.2⟩
  | confirm v r b =>
    obtain ⟨h1, h2⟩ := hw v r b rfl
    refine ⟨atom_ok hf.1 hok.1, atom_ok hf.2 hok.2.1, ?_⟩
    rw [← whole_eval hf.1 h1 he, ← whole_eval hf.2 h2 he]
    exact hok.2.2

theorem nodeInfo_right {env : Env} {m : IMode} {e : Expr m} (h : ∀ k i, e.Uses k i → (s.data k i).Desc (env k i)) : InfoRight (nodeInfo s) env e := by
  intro k t ht _ i hi
  cases t with
  | leaf k n =>
    simp only [nodeInfo, Option.some.injEq] at hi
    subst hi
    exact h k n (ht _ _ ⟨rfl, rfl⟩)
  | const v =>
    simp only [nodeInfo, Option.some.injEq] at hi
    subst hi
    exact describes_refl _
  | _ => simp [nodeInfo] at hi

/-! ## Executions -/

variable {care : Care} {walk : IMode → Nat → Bool}

theorem occult_agree {m : IMode} {z o v c : BitVec m.bits} (h : Describes z o v) (hc : c &&& (o ^^^ z) = 0#m.bits) : AgreeOn c v (z &&& c) := by
  intro i hi
  have h1 := h i (bit_lt hi)
  have h2 := congrArg (fun u => BitVec.getLsbD u i) hc
  simp only [BitVec.getLsbD_and, BitVec.getLsbD_xor, hi, Bool.true_and, BitVec.getLsbD_zero, Bool.and_true] at h2 ⊢
  generalize z.getLsbD i = a, o.getLsbD i = b, v.getLsbD i = d at *
  revert h1 h2; revert a b d; decide

/-- a value and the bits of it that are known -/
theorem computes_known {last b : Nat} {i : Option Nat} {ρ : PEnv} {opq : Env} (hf : Fixpoint G.toSsaGraph last s) (hr : Props.GraphRegular G.toSsaGraph)
    (hent : G.Enters ρ b i) {m : IMode} {n : Nat} {v : BitVec m.bits} (h : G.Computes ρ opq b i m n v) : (s.data m n).Desc v := by
  let ρ' : PEnv := fun m' n' => if e : m' = m ∧ n' = n then some (e.1 ▸ v) else none
  have hval : ρ' m n = some v := by simp [ρ']
  have hcomp : ∀ m' n' v', ρ' m' n' = some v' → G.Computes ρ opq b i m' n' v' := by
    intro m' n' v' hv'
    by_cases e : m' = m ∧ n' = n
    · obtain ⟨rfl, rfl⟩ := e
      rw [hval] at hv'
      cases hv'
      exact h
    · simp [ρ', e] at hv'
  cases hent with
  | start => exact (Props.constbits_graph_partial hf hr (.start hcomp)).2 _ _ _ hval
  | step hreach hx ht hi => exact (Props.constbits_graph_partial hf hr (.step hreach hx ht hi hcomp)).2 _ _ _ hval

theorem occultNode_const {G : SsaGraph} {m : IMode} {n : Nat} (hne : ∀ c, G.node m n ≠ .op (.const c))
    (hc : care.data m n &&& ((s.data m n).o ^^^ (s.data m n).z) = 0#m.bits) :
    occultNode G s care m n = .op (.const ((s.data m n).z &&& care.data m n)) := by
  unfold occultNode
  split
  · next c e => exact absurd e (hne c)
  · rw [if_pos hc]

theorem occultNode_stay {G : SsaGraph} {m : IMode} {n : Nat} (hc : ¬ care.data m n &&& ((s.data m n).o ^^^ (s.data m n).z) = 0#m.bits) :
    occultNode G s care m n = G.node m n := by
  unfold occultNode
  split
  · next c e => rw [e]
  · rw [if_neg hc]

theorem computes_sim {last b : Nat} {i : Option Nat} {ρ ρ' : PEnv} {opq : Env} (hf : Fixpoint G.toSsaGraph last s) (hr : Props.GraphRegular G.toSsaGraph)
    (hcl : Closed G s care) (hcov : GraphCovered G s care) (hwalk : ∀ m n, walk m n = true → m.Valid) (hwalk' : ∀ m n, walk m n = false → G.node m n = .input)
    (hent : G.Enters ρ b i) (hρ : ∀ m n v, ρ m n = some v → ∃ v', ρ' m n = some v' ∧ AgreeOn (care.data m n) v v')
    {m : IMode} {n : Nat} {v : BitVec m.bits} (h : G.Computes ρ opq b i m n v) :
    ∃ v', (occult G.toSsaGraph s care walk).Computes ρ' opq b i m n v' ∧ AgreeOn (care.data m n) v v' := by
  -- a node that is replaced
  have hconst : ∀ {m : IMode} {n : Nat} {v : BitVec m.bits}, G.Computes ρ opq b i m n v → G.blockOf m n = b → walk m n = true →
      care.data m n &&& ((s.data m n).o ^^^ (s.data m n).z) = 0#m.bits → (∀ c, G.node m n ≠ .op (.const c)) →
      ∃ v', (occult G.toSsaGraph s care walk).Computes ρ' opq b i m n v' ∧ AgreeOn (care.data m n) v v' := by
    intro m n v h hb hw hc hne
    refine ⟨(s.data m n).z &&& care.data m n, ?_, occult_agree (computes_known hf hr hent h) hc⟩
    refine SsaGraph.Computes.op (e := .const ((s.data m n).z &&& care.data m n)) (env := opq) hb ?_ (fun _ _ h => False.elim h) (hwalk m n hw)
    simp only [occult, hw, if_true]
    exact occultNode_const hne hc
  -- a node that stays
  have hstay : ∀ {m : IMode} {n : Nat}, ¬ (walk m n = true ∧ care.data m n &&& ((s.data m n).o ^^^ (s.data m n).z) = 0#m.bits) →
      (occult G.toSsaGraph s care walk).node m n = G.node m n := by
    intro m n hn
    by_cases hw : walk m n = true
    · simp only [occult, hw, if_true]
      exact occultNode_stay fun h => hn ⟨hw, h⟩
    · simp only [occult, hw]; rfl
  induction h with
  | @keep m n v hb h =>
    obtain ⟨v', h1, h2⟩ := hρ m n v h
    exact ⟨v', .keep hb h1, h2⟩
  | @input m n hb hn =>
    by_cases hrep : walk m n = true ∧ care.data m n &&& ((s.data m n).o ^^^ (s.data m n).z) = 0#m.bits
    · exact hconst (.input hb hn) hb hrep.1 hrep.2 (fun c e => by rw [hn] at e; cases e)
    · exact ⟨opq m n, .input hb ((hstay hrep).trans hn), fun _ _ => rfl⟩
  | @phi m n j a args v hb hn hj ha hv =>
    by_cases hrep : walk m n = true ∧ care.data m n &&& ((s.data m n).o ^^^ (s.data m n).z) = 0#m.bits
    · exact hconst (.phi hb hn hj ha hv) hb hrep.1 hrep.2 (fun c e => by rw [hn] at e; cases e)
    · obtain ⟨v', h1, h2⟩ := hρ m a v hv
      refine ⟨v', .phi hb ((hstay hrep).trans hn) hj ha h1, ?_⟩
      have hhas : Has care (.data m n) := by
        intro e
        refine hrep ⟨?_, by rw [e, BitVec.zero_and]⟩
        cases hw : walk m n
        · have := hwalk' m n hw; rw [hn] at this; cases this
        · rfl
      refine AgreeOn.mono h2 (hcl _ hhas (.mask m a (care.data m n)) ?_)
      simp only [transfer, hn]
      exact List.mem_append_left _ (List.mem_map.2 ⟨a, List.mem_of_getElem? ha, rfl⟩)
  | @op m n e env hb hn huse hok ih =>
    by_cases hce : ∃ c, e = .const c
    · obtain ⟨c, rfl⟩ := hce
      refine ⟨c, SsaGraph.Computes.op (e := .const c) (env := opq) hb ?_ (fun _ _ h => False.elim h) hok, fun _ _ => rfl⟩
      simp only [occult]
      split
      · simp only [occultNode, hn]
      · exact hn
    by_cases hrep : walk m n = true ∧ care.data m n &&& ((s.data m n).o ^^^ (s.data m n).z) = 0#m.bits
    · exact hconst (.op hb hn huse hok) hb hrep.1 hrep.2 (fun c e' => by rw [hn] at e'; injection e' with e'; exact hce ⟨c, e'⟩)
    · have hw : walk m n = true := by
        cases hw : walk m n
        · have := hwalk' m n hw; rw [hn] at this; cases this
        · rfl
      have hne : care.data m n ≠ 0#m.bits := fun e => hrep ⟨hw, by rw [e, BitVec.zero_and]⟩
      have hex : ∀ k j, ∃ v', (e.Uses k j → (occult G.toSsaGraph s care walk).Computes ρ' opq b i k j v') ∧ AgreeOn (care.data k j) (env k j) v' := by
        intro k j
        by_cases hu : e.Uses k j
        · obtain ⟨v', h1, h2⟩ := ih k j hu
          exact ⟨v', fun _ => h1, h2⟩
        · exact ⟨env k j, fun h => absurd h hu, fun _ _ => rfl⟩
      let env' : Env := fun k j => Classical.choose (hex k j)
      have henv : ∀ k j, (e.Uses k j → (occult G.toSsaGraph s care walk).Computes ρ' opq b i k j (env' k j)) ∧
          AgreeOn (care.data k j) (env k j) (env' k j) := fun k j => Classical.choose_spec (hex k j)
      have hinfo : InfoRight (nodeInfo s) env e := nodeInfo_right fun k j hu => computes_known hf hr hent (huse k j hu)
      have hd : ∀ d ∈ demands (nodeInfo s) e (care.data m n), AgreeOn d.care (env d.m d.n) (env' d.m d.n) := by
        intro d hd
        refine AgreeOn.mono (henv d.m d.n).2 (hcl (.data m n) hne (.mask d.m d.n d.care) ?_)
        simp only [transfer, hn]
        exact List.mem_map.2 ⟨d, hd, rfl⟩
      have hcv := hcov.covered m n e hn
      refine ⟨e.eval env', .op hb ((hstay hrep).trans hn) (fun k j hu => (henv k j).1 hu) ?_, demands_sound e hinfo hok hcv _ hd⟩
      exact flat_ok (hcov.flat m n e hn) hcv hinfo (fun v r b' e' => hcov.confirm m n v r b' (by rw [hn, e'])) hok hne hd (fun k j => (henv k j).2)

end Verif.Lemmas.Dca
