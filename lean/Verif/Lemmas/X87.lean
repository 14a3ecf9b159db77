import Verif.Model.X87
import Verif.Lemmas.Perm
/-! # Lemmas about the x87 simulator -/
namespace Verif.Lemmas.X87
open Verif.Spec.X87 Verif.Model.X87

variable {V : Type} {sem : Sem V}

/-! ### Code -/

theorem exec_append {s s1 s2 : List V} {c1 c2 : List Insn} {e1 e2 : List (Event V)}
    (h1 : exec sem s c1 = some (e1, s1)) (h2 : exec sem s1 c2 = some (e2, s2)) :
    exec sem s (c1 ++ c2) = some (e1 ++ e2, s2) := by
  induction c1 generalizing s e1 with
  | nil =>
    simp only [exec] at h1
    cases h1
    simpa using h2
  | cons i is ih =>
    simp only [exec] at h1
    simp only [List.cons_append, exec]
    cases hx : exec1 sem s i with
    | none => rw [hx] at h1; cases h1
    | some p =>
      obtain ⟨e, s'⟩ := p
      rw [hx] at h1
      dsimp only at h1 ⊢
      cases hy : exec sem s' is with
      | none => rw [hy] at h1; cases h1
      | some q =>
        obtain ⟨es, s''⟩ := q
        rw [hy] at h1
        cases h1
        rw [ih hy]
        simp

theorem exec_one {s s1 : List V} {i : Insn} {e : List (Event V)} (h : exec1 sem s i = some (e, s1)) :
    exec sem s [i] = some (e, s1) := by
  simp [exec, h]

theorem andThen_some {x : Sim} {f : St → Sim} {c c' : List Insn} {st st' : St} (h : x = some (c, st))
    (h' : f st = some (c', st')) : x.andThen f = some (c ++ c', st') := by
  rw [h]
  simp only [Sim.andThen, h']

/-! ### Places -/

theorem onStack_of_mem {st : St} {r : Nat} (h : r ∈ st) :
    ∃ l1 l2, st = l1 ++ r :: l2 ∧ r ∉ l1 ∧ onStack st r = some l1.length := by
  induction st with
  | nil => cases h
  | cons x xs ih =>
    by_cases hx : x = r
    · subst hx
      exact ⟨[], xs, rfl, by simp, by simp [onStack, List.findIdx?_cons]⟩
    · have hr : r ∈ xs := by
        rcases List.mem_cons.mp h with e | h
        · exact absurd e.symm hx
        · exact h
      obtain ⟨l1, l2, e, hn, ho⟩ := ih hr
      refine ⟨x :: l1, l2, by rw [e]; rfl, ?_, ?_⟩
      · simp only [List.mem_cons, not_or]
        exact ⟨fun e => hx e.symm, hn⟩
      · unfold onStack at ho ⊢
        rw [List.findIdx?_cons, if_neg (by simpa using hx), ho]
        rfl

/-- a register takes the place of another -/
theorem set_mem {l1 l2 : List Nat} {y x : Nat} (hn : (l1 ++ y :: l2).Nodup)
    (hx : x ∉ l1 ++ y :: l2 ∨ x = y) :
    (l1 ++ x :: l2).Nodup ∧ ∀ r, r ∈ l1 ++ x :: l2 ↔ r = x ∨ (r ∈ l1 ++ y :: l2 ∧ r ≠ y) := by
  simp only [List.nodup_append, List.nodup_cons, List.mem_cons, List.mem_append] at hn ⊢ hx
  obtain ⟨h1, ⟨h2, h3⟩, h4⟩ := hn
  have hy1 : y ∉ l1 := fun h => h4 y h y (.inl rfl) rfl
  have hx1 : x ∉ l1 := by
    rcases hx with hx | rfl
    · exact fun h => hx (.inl h)
    · exact hy1
  have hx2 : x ∉ l2 := by
    rcases hx with hx | rfl
    · exact fun h => hx (.inr (.inr h))
    · exact h2
  refine ⟨⟨h1, ⟨hx2, h3⟩, ?_⟩, ?_⟩
  · rintro a ha b (rfl | hb)
    · rintro rfl; exact hx1 ha
    · exact h4 a ha b (.inr hb)
  · intro r
    constructor
    · rintro (h | rfl | h)
      · exact .inr ⟨.inl h, by rintro rfl; exact hy1 h⟩
      · exact .inl rfl
      · exact .inr ⟨.inr (.inr h), by rintro rfl; exact h2 h⟩
    · rintro (rfl | ⟨h | rfl | h, hr⟩)
      · exact .inr (.inl rfl)
      · exact .inl h
      · exact absurd rfl hr
      · exact .inr (.inr h)

theorem getElem_mid {α : Type} (l1 l2 : List α) (y : α) : (l1 ++ y :: l2)[l1.length]? = some y := by simp

theorem set_mid {α : Type} (l1 l2 : List α) (y x : α) : (l1 ++ y :: l2).set l1.length x = l1 ++ x :: l2 := by
  simp

/-- the values follow -/
theorem map_mid {l1 l2 : List Nat} {x : Nat} {R R' : Nat → V} {v : V} (h1 : x ∉ l1) (h2 : x ∉ l2)
    (hv : R' x = v) (hr : ∀ r, r ≠ x → R' r = R r) :
    (l1 ++ x :: l2).map R' = l1.map R ++ v :: l2.map R := by
  simp only [List.map_append, List.map_cons, hv]
  have e : ∀ l : List Nat, x ∉ l → l.map R' = l.map R := by
    intro l hl
    apply List.map_congr_left
    intro r hrl
    exact hr r (by rintro rfl; exact hl hrl)
  rw [e l1 h1, e l2 h2]

theorem exch_ok {st : St} {i : Nat} (hi : i < st.length) :
    ∃ a rest, createFxch st i = some ([.fxch i], a :: rest) ∧ st[i]? = some a ∧ (a :: rest).Perm st ∧
      (∀ j, 0 < j → j ≠ i → (a :: rest)[j]? = st[j]?) ∧ (0 < i → (a :: rest)[i]? = st[0]?) ∧
      ∀ R : Nat → V, exec sem (st.map R) [.fxch i] = some ([], (a :: rest).map R) := by
  cases st with
  | nil => simp at hi
  | cons t st =>
    cases i with
    | zero =>
      refine ⟨t, st, by simp [createFxch], rfl, List.Perm.refl _, fun j hj hn => rfl, fun h => absurd h (by omega), ?_⟩
      intro R
      exact exec_one (by simp [exec1])
    | succ j =>
      simp only [List.length_cons, Nat.add_lt_add_iff_right] at hi
      obtain ⟨l1, a, l2, e, hl⟩ : ∃ l1 a l2, st = l1 ++ a :: l2 ∧ l1.length = j := by
        refine ⟨st.take j, st[j], st.drop (j + 1), ?_, by simp; omega⟩
        simp
      subst e
      subst hl
      have hg := getElem_mid l1 l2 a
      refine ⟨a, l1 ++ t :: l2, ?_, ?_, ?_, ?_, ?_, ?_⟩
      · simp [createFxch]
      · simp
      · refine (List.Perm.cons a (List.perm_middle)).trans ?_
        refine (List.Perm.swap t a (l1 ++ l2)).trans ?_
        exact List.Perm.cons t List.perm_middle.symm
      · intro k hk hne
        cases k with
        | zero => omega
        | succ k =>
          simp only [List.getElem?_cons_succ]
          rcases Nat.lt_trichotomy k l1.length with h | h | h
          · rw [List.getElem?_append_left h, List.getElem?_append_left h]
          · omega
          · rw [List.getElem?_append_right (by omega), List.getElem?_append_right (by omega)]
            obtain ⟨m, hm⟩ : ∃ m, k - l1.length = m + 1 := ⟨k - l1.length - 1, by omega⟩
            rw [hm]; rfl
      · intro _
        simp
      · intro R
        refine exec_one ?_
        simp [exec1]

theorem move_ok {st : St} {a : Nat} (ha : a ∈ st) :
    ∃ c rest, moveToTos st a = some (c, a :: rest) ∧ (a :: rest).Perm st ∧
      ∀ R : Nat → V, exec sem (st.map R) c = some ([], (a :: rest).map R) := by
  obtain ⟨l1, l2, e, _, ho⟩ := onStack_of_mem ha
  unfold moveToTos moveToPos
  rw [ho]
  dsimp only
  by_cases h0 : l1.length = 0
  · have : l1 = [] := List.eq_nil_of_length_eq_zero h0
    subst this
    subst e
    refine ⟨[], l2, by simp, List.Perm.refl _, fun R => by simp [exec]⟩
  · obtain ⟨x, rest, h1, h2, h3, -, -, h4⟩ :=
      exch_ok (sem := sem) (st := st) (i := l1.length) (by rw [e]; simp)
    have : x = a := by
      rw [e, getElem_mid] at h2
      cases h2; rfl
    subst this
    refine ⟨[.fxch l1.length], rest, ?_, h3, h4⟩
    rw [if_pos h0, if_pos h0]
    rw [andThen_some (c' := []) (st' := x :: rest) h1 (by simp)]
    simp

/-- the registers on the stack are the live ones -/
structure Inv (live : List Nat) (st : St) : Prop where
  nodup : st.Nodup
  mem : ∀ r, r ∈ st ↔ r ∈ live
  small : ∀ r ∈ st, r < 8

theorem room {st : St} (hn : st.Nodup) (hs : ∀ r ∈ st, r < 8) {out : Nat} (ho : out ∉ st) (h8 : out < 8) :
    st.length < 8 := by
  have := Verif.Model.Perm.length_le_of_subset (l := out :: st) (l' := List.range 8)
    (List.nodup_cons.mpr ⟨ho, hn⟩) (by
      intro x hx
      rcases List.mem_cons.mp hx with rfl | hx
      · simpa using h8
      · simpa using hs x hx)
  simp at this
  omega

theorem map_upd {st : St} {out : Nat} {R : Nat → V} {v : V} (h : out ∉ st) : st.map (upd R out v) = st.map R := by
  apply List.map_congr_left
  intro r hr
  simp only [upd]
  rw [if_neg (by rintro rfl; exact h hr)]

theorem dup_ok {st : St} {a out : Nat} (ha : a ∈ st) (hn : st.Nodup) (hs : ∀ r ∈ st, r < 8) (ho : out ∉ st)
    (h8 : out < 8) :
    ∃ i, dupOperand st a out = some ([.fdup i], out :: st) ∧
      ∀ R : Nat → V, exec sem (st.map R) [.fdup i] = some ([], (out :: st).map (upd R out (R a))) := by
  obtain ⟨l1, l2, e, _, hp⟩ := onStack_of_mem ha
  have hr := room hn hs ho h8
  refine ⟨l1.length, ?_, ?_⟩
  · simp [dupOperand, hp, push, hr]
  · intro R
    refine exec_one ?_
    have hg : (st.map R)[l1.length]? = some (R a) := by rw [e]; simp
    simp only [exec1, hg, List.length_map, hr, if_true]
    rw [List.map_cons, map_upd ho]
    simp [upd]

theorem fpop_zero {t : Nat} {rest : St} :
    createFpop (t :: rest) 0 = some ([.fpop 0], rest) ∧
      ∀ R : Nat → V, exec sem ((t :: rest).map R) [.fpop 0] = some ([], rest.map R) := by
  refine ⟨by simp [createFpop], fun R => exec_one (by simp [exec1])⟩

/-- the top replaces a value -/
theorem fpop_mid {t y : Nat} {l1 l2 : St} :
    createFpop (t :: l1 ++ y :: l2) (l1.length + 1) = some ([.fpop (l1.length + 1)], l1 ++ t :: l2) ∧
      ∀ R : Nat → V,
        exec sem ((t :: l1 ++ y :: l2).map R) [.fpop (l1.length + 1)] = some ([], (l1 ++ t :: l2).map R) := by
  refine ⟨by simp [createFpop], fun R => exec_one ?_⟩
  simp only [exec1]
  have : ((t :: l1 ++ y :: l2).map R) = R t :: (l1.map R ++ R y :: l2.map R) := by simp
  rw [this]
  have h2 : (R t :: (l1.map R ++ R y :: l2.map R))[l1.length + 1]? = some (R y) := by simp
  rw [h2]
  simp

/-! ### The nodes -/

theorem mem_transfer {o : Op} {live : List Nat} {r : Nat} :
    r ∈ transfer o live ↔ (r ∈ live ∧ r ∉ o.defs) ∨ r ∈ o.uses := by
  simp [transfer, List.mem_filter]

theorem isLive_iff {live : List Nat} {k : Option Nat} {r : Nat} :
    isLive live k r = true ↔ r ∈ live ∧ k ≠ some r := by
  simp [isLive]

theorem isLive_not {live : List Nat} {k : Option Nat} {r : Nat} :
    ¬isLive live k r = true ↔ (r ∈ live → k = some r) := by
  rw [isLive_iff]
  constructor
  · intro h hr
    exact Classical.byContradiction fun hk => h ⟨hr, hk⟩
  · rintro h ⟨hr, hk⟩
    exact hk (h hr)

/-- What is shown of a node. -/
def Good (sem : Sem V) (live : List Nat) (st : St) (o : Op) (x : Sim) : Prop :=
  ∃ c st', x = some (c, st') ∧ Inv live st' ∧
    ∀ R : Nat → V, exec sem (st.map R) c = some ((o.step sem R).1, st'.map (o.step sem R).2)

theorem load_ok {live : List Nat} {st : St} {n out : Nat} (ho : out ∈ live) (h8 : out < 8)
    (hi : Inv (transfer (.load n out) live) st) : Good sem live st (.load n out) ((push st out).map fun st => ([.fld n], st)) := by
  have hm : ∀ r, r ∈ st ↔ r ∈ live ∧ r ≠ out := fun r => by
    rw [hi.mem, mem_transfer]; simp [Op.defs, Op.uses]
  have hn : out ∉ st := fun h => ((hm out).mp h).2 rfl
  have hr := room hi.nodup hi.small hn h8
  refine ⟨[.fld n], out :: st, by simp [push, hr], ⟨List.nodup_cons.mpr ⟨hn, hi.nodup⟩, ?_, ?_⟩, ?_⟩
  · intro r
    rw [List.mem_cons, hm]
    constructor
    · rintro (rfl | h)
      · exact ho
      · exact h.1
    · intro h
      by_cases e : r = out
      · exact .inl e
      · exact .inr ⟨h, e⟩
  · intro r h
    rcases List.mem_cons.mp h with rfl | h
    · exact h8
    · exact hi.small r h
  · intro R
    refine exec_one ?_
    simp [exec1, hr, Op.step, map_upd hn, upd]

theorem perm_rest {a : Nat} {rest st : St} (hp : (a :: rest).Perm st) (hn : st.Nodup) :
    rest.Nodup ∧ a ∉ rest ∧ ∀ r, r ∈ rest ↔ r ∈ st ∧ r ≠ a := by
  have h := hp.nodup_iff.mpr hn
  rw [List.nodup_cons] at h
  refine ⟨h.2, h.1, fun r => ?_⟩
  rw [← hp.mem_iff, List.mem_cons]
  constructor
  · intro hr
    exact ⟨.inr hr, by rintro rfl; exact h.1 hr⟩
  · rintro ⟨e | hr, hne⟩
    · exact absurd e hne
    · exact hr

theorem unop_ok {live : List Nat} {st : St} {n a out : Nat} (ho : out ∈ live) (h8 : out < 8)
    (hi : Inv (transfer (.unop n a out) live) st) : Good sem live st (.unop n a out) (simUnop live n a out st) := by
  have hm : ∀ r, r ∈ st ↔ (r ∈ live ∧ r ≠ out) ∨ r = a := fun r => by
    rw [hi.mem, mem_transfer]; simp [Op.defs, Op.uses]
  have ha : a ∈ st := (hm a).mpr (.inr rfl)
  unfold simUnop valueToTos
  by_cases hl : isLive live (some out) a = true
  · rw [if_pos hl]
    obtain ⟨hal, hne⟩ := isLive_iff.mp hl
    have hne : out ≠ a := fun e => hne (by rw [e])
    have hn : out ∉ st := fun h => by
      rcases (hm out).mp h with h | h
      · exact h.2 rfl
      · exact hne h
    obtain ⟨i, hd, hx⟩ := dup_ok (sem := sem) ha hi.nodup hi.small hn h8
    refine ⟨_, out :: st, andThen_some hd (c' := [.op1 n]) (st' := out :: st) (by simp [setSt]), ⟨List.nodup_cons.mpr ⟨hn, hi.nodup⟩, ?_, ?_⟩, ?_⟩
    · intro r
      rw [List.mem_cons, hm]
      constructor
      · rintro (rfl | h | rfl)
        · exact ho
        · exact h.1
        · exact hal
      · intro h
        by_cases e : r = out
        · exact .inl e
        · exact .inr (.inl ⟨h, e⟩)
    · intro r h
      rcases List.mem_cons.mp h with rfl | h
      · exact h8
      · exact hi.small r h
    · intro R
      have := exec_append (hx R) (exec_one (sem := sem) (i := .op1 n) (e := []) (s1 := (out :: st).map (upd R out (sem.un n (R a)))) (by
        simp [exec1, map_upd hn, upd]))
      simpa [Op.step] using this
  · rw [if_neg hl]
    have hl := isLive_not.mp hl
    obtain ⟨c, rest, hmv, hp, hx⟩ := move_ok (sem := sem) ha
    obtain ⟨hrn, har, hrm⟩ := perm_rest hp hi.nodup
    have hn : out ∉ rest := fun h => by
      obtain ⟨h1, h2⟩ := (hrm out).mp h
      rcases (hm out).mp h1 with h | h
      · exact h.2 rfl
      · exact h2 h
    refine ⟨_, out :: rest, andThen_some hmv (c' := [.op1 n]) (st' := out :: rest) (by simp [setSt]), ⟨List.nodup_cons.mpr ⟨hn, hrn⟩, ?_, ?_⟩, ?_⟩
    · intro r
      rw [List.mem_cons, hrm, hm]
      constructor
      · rintro (rfl | ⟨h | h, h2⟩)
        · exact ho
        · exact h.1
        · exact absurd h h2
      · intro h
        by_cases e : r = out
        · exact .inl e
        · refine .inr ⟨.inl ⟨h, e⟩, ?_⟩
          rintro rfl
          have := hl h
          cases this
          exact e rfl
    · intro r h
      rcases List.mem_cons.mp h with rfl | h
      · exact h8
      · exact hi.small r ((hrm r).mp h).1
    · intro R
      have := exec_append (hx R) (exec_one (sem := sem) (i := .op1 n) (e := []) (s1 := (out :: rest).map (upd R out (sem.un n (R a)))) (by
        simp [exec1, map_upd hn, upd]))
      simpa [Op.step] using this

theorem copy_ok {live : List Nat} {st : St} {a out : Nat} (ho : out ∈ live) (h8 : out < 8)
    (hi : Inv (transfer (.copy a out) live) st) : Good sem live st (.copy a out) (simCopy live a out st) := by
  have hm : ∀ r, r ∈ st ↔ (r ∈ live ∧ r ≠ out) ∨ r = a := fun r => by
    rw [hi.mem, mem_transfer]; simp [Op.defs, Op.uses]
  have ha : a ∈ st := (hm a).mpr (.inr rfl)
  unfold simCopy
  by_cases hl : isLive live (some out) a = true
  · rw [if_pos hl]
    obtain ⟨hal, hne⟩ := isLive_iff.mp hl
    have hne : out ≠ a := fun e => hne (by rw [e])
    have hn : out ∉ st := fun h => by
      rcases (hm out).mp h with h | h
      · exact h.2 rfl
      · exact hne h
    obtain ⟨i, hd, hx⟩ := dup_ok (sem := sem) ha hi.nodup hi.small hn h8
    refine ⟨_, out :: st, hd, ⟨List.nodup_cons.mpr ⟨hn, hi.nodup⟩, ?_, ?_⟩, hx⟩
    · intro r
      rw [List.mem_cons, hm]
      constructor
      · rintro (rfl | h | rfl)
        · exact ho
        · exact h.1
        · exact hal
      · intro h
        by_cases e : r = out
        · exact .inl e
        · exact .inr (.inl ⟨h, e⟩)
    · intro r h
      rcases List.mem_cons.mp h with rfl | h
      · exact h8
      · exact hi.small r h
  · rw [if_neg hl]
    have hl := isLive_not.mp hl
    obtain ⟨l1, l2, e, _, hp⟩ := onStack_of_mem ha
    subst e
    rw [hp]
    have hx : out ∉ l1 ++ a :: l2 ∨ out = a := by
      by_cases h : out ∈ l1 ++ a :: l2
      · rcases (hm out).mp h with h | h
        · exact absurd rfl h.2
        · exact .inr h
      · exact .inl h
    obtain ⟨h1, h2⟩ := set_mem hi.nodup hx
    refine ⟨[], l1 ++ out :: l2, by simp [setSt], ⟨h1, ?_, ?_⟩, ?_⟩
    · intro r
      rw [h2, hm]
      constructor
      · rintro (rfl | ⟨h | h, h2⟩)
        · exact ho
        · exact h.1
        · exact absurd h h2
      · intro h
        by_cases e : r = out
        · exact .inl e
        · refine .inr ⟨.inl ⟨h, e⟩, ?_⟩
          rintro rfl
          have := hl h
          cases this
          exact e rfl
    · intro r h
      rcases (h2 r).mp h with rfl | h
      · exact h8
      · exact hi.small r h.1
    · intro R
      rw [List.nodup_append, List.nodup_cons] at h1
      simp only [exec, Op.step]
      rw [map_mid (R := R) (R' := upd R out (R a)) (v := R a) (fun h => h1.2.2 out h out (List.mem_cons_self ..) rfl) h1.2.1.1
        (by simp [upd]) (fun r h => by simp [upd, h])]
      simp

theorem binop_top {live : List Nat} {st rest : St} {n a b out t other : Nat} {rev : Bool} {c : List Insn}
    (hp : binopPlace live a b out st = some (c, t :: rest, other, rev, false, false))
    (hoth : other ∈ t :: rest) (hn : rest.Nodup) (ho : out ∉ rest) (hm : ∀ r, r ∈ out :: rest ↔ r ∈ live)
    (hs : ∀ r ∈ rest, r < 8) (h8 : out < 8)
    (hx : ∀ R : Nat → V, ∃ R1, exec sem (st.map R) c = some ([], (t :: rest).map R1) ∧ (∀ r ∈ rest, R1 r = R r) ∧
      (if rev then sem.bin n (R1 other) (R1 t) else sem.bin n (R1 t) (R1 other)) = sem.bin n (R a) (R b)) :
    Good sem live st (.binop n a b out) (simBinop live n a b out st) := by
  obtain ⟨l1, l2, e, _, hq⟩ := onStack_of_mem hoth
  unfold simBinop
  rw [hp]
  dsimp only
  rw [hq]
  refine ⟨c ++ [.op2 n l1.length rev false false], out :: rest, by simp [setSt],
    ⟨List.nodup_cons.mpr ⟨ho, hn⟩, hm, ?_⟩, ?_⟩
  · intro r h
    rcases List.mem_cons.mp h with rfl | h
    · exact h8
    · exact hs r h
  · intro R
    obtain ⟨R1, h1, h2, h3⟩ := hx R
    have hg : ((t :: rest).map R1)[l1.length]? = some (R1 other) := by rw [e]; simp
    have h0 : ((t :: rest).map R1)[0]? = some (R1 t) := by simp
    have := exec_append h1 (exec_one (sem := sem) (i := .op2 n l1.length rev false false) (e := [])
      (s1 := (out :: rest).map (upd R out (sem.bin n (R a) (R b)))) (by
        simp only [exec1, hg, h0]
        rw [h3, List.map_cons, List.map_cons, map_upd ho, List.map_congr_left h2]
        simp [upd]))
    simpa [Op.step] using this

theorem binop_reg {live : List Nat} {st l1 l2 : St} {n a b out t other : Nat} {rest : St} {rev : Bool} {c : List Insn}
    (hp : binopPlace live a b out st = some (c, t :: rest, other, rev, true, false))
    (he : t :: rest = l1 ++ other :: l2) (hq : onStack (t :: rest) other = some l1.length)
    (hn : (t :: rest).Nodup) (ho : out ∉ t :: rest ∨ out = other)
    (hm : ∀ r, (r = out ∨ (r ∈ t :: rest ∧ r ≠ other)) ↔ r ∈ live)
    (hs : ∀ r ∈ t :: rest, r < 8) (h8 : out < 8)
    (hx : ∀ R : Nat → V, exec sem (st.map R) c = some ([], (t :: rest).map R) ∧
      (if rev then sem.bin n (R other) (R t) else sem.bin n (R t) (R other)) = sem.bin n (R a) (R b)) :
    Good sem live st (.binop n a b out) (simBinop live n a b out st) := by
  have h12 := set_mem (x := out) (he ▸ hn) (he ▸ ho)
  obtain ⟨h1, h2⟩ := h12
  unfold simBinop
  rw [hp]
  dsimp only
  rw [hq]
  refine ⟨c ++ [.op2 n l1.length rev true false], l1 ++ out :: l2, ?_, ⟨h1, ?_, ?_⟩, ?_⟩
  · rw [he]; simp [setSt]
  · intro r
    rw [h2, ← he, hm]
  · intro r h
    rcases (h2 r).mp h with rfl | h
    · exact h8
    · exact hs r (he ▸ h.1)
  · intro R
    obtain ⟨hx1, hx3⟩ := hx R
    have hg : ((t :: rest).map R)[l1.length]? = some (R other) := by rw [he]; simp
    have h0 : ((t :: rest).map R)[0]? = some (R t) := by simp
    rw [List.nodup_append, List.nodup_cons] at h1
    have := exec_append hx1 (exec_one (sem := sem) (i := .op2 n l1.length rev true false) (e := [])
      (s1 := (l1 ++ out :: l2).map (upd R out (sem.bin n (R a) (R b)))) (by
        simp only [exec1, hg, h0]
        rw [hx3, map_mid (R := R) (v := sem.bin n (R a) (R b))
          (fun h => h1.2.2 out h out (List.mem_cons_self ..) rfl) h1.2.1.1
          (by simp [upd]) (fun r h => by simp [upd, h]), he]
        simp))
    simpa [Op.step] using this

theorem binop_pop {live : List Nat} {st : St} {n a b out t other : Nat} {rest : St} {rev : Bool} {c : List Insn}
    (hp : binopPlace live a b out st = some (c, t :: rest, other, rev, true, true))
    (hoth : other ∈ rest) (hn : (t :: rest).Nodup) (ho : out ∉ t :: rest ∨ out = other ∨ out = t)
    (hm : ∀ r, (r = out ∨ (r ∈ rest ∧ r ≠ other)) ↔ r ∈ live)
    (hs : ∀ r ∈ t :: rest, r < 8) (h8 : out < 8)
    (hx : ∀ R : Nat → V, exec sem (st.map R) c = some ([], (t :: rest).map R) ∧
      (if rev then sem.bin n (R other) (R t) else sem.bin n (R t) (R other)) = sem.bin n (R a) (R b)) :
    Good sem live st (.binop n a b out) (simBinop live n a b out st) := by
  have hnt := List.nodup_cons.mp hn
  have hne : other ≠ t := by rintro rfl; exact hnt.1 hoth
  obtain ⟨l1, l2, he, hnot, hq⟩ := onStack_of_mem (st := t :: rest) (List.mem_cons_of_mem _ hoth)
  cases l1 with
  | nil =>
    simp only [List.nil_append, List.cons.injEq] at he
    exact absurd he.1.symm hne
  | cons t' l1 =>
    simp only [List.cons_append, List.cons.injEq] at he
    obtain ⟨rfl, he⟩ := he
    have ho' : out ∉ rest ∨ out = other := by
      rcases ho with h | h | rfl
      · exact .inl fun h' => h (List.mem_cons_of_mem _ h')
      · exact .inr h
      · exact .inl hnt.1
    obtain ⟨h1, h2⟩ := set_mem (x := out) (he ▸ hnt.2) (he ▸ ho')
    unfold simBinop
    rw [hp]
    dsimp only
    rw [hq]
    refine ⟨c ++ [.op2 n (t :: l1).length rev true true], l1 ++ out :: l2, ?_, ⟨h1, ?_, ?_⟩, ?_⟩
    · rw [he]; simp [setSt]
    · intro r
      rw [h2, ← he, hm]
    · intro r h
      rcases (h2 r).mp h with rfl | h
      · exact h8
      · exact hs r (List.mem_cons_of_mem _ (he ▸ h.1))
    · intro R
      obtain ⟨hx1, hx3⟩ := hx R
      have hg : ((t :: rest).map R)[(t :: l1).length]? = some (R other) := by rw [he]; simp
      have h0 : ((t :: rest).map R)[0]? = some (R t) := by simp
      rw [List.nodup_append, List.nodup_cons] at h1
      have := exec_append hx1 (exec_one (sem := sem) (i := .op2 n (t :: l1).length rev true true) (e := [])
        (s1 := (l1 ++ out :: l2).map (upd R out (sem.bin n (R a) (R b)))) (by
          simp only [exec1, hg, h0]
          rw [hx3, map_mid (R := R) (v := sem.bin n (R a) (R b))
            (fun h => h1.2.2 out h out (List.mem_cons_self ..) rfl) h1.2.1.1
            (by simp [upd]) (fun r h => by simp [upd, h]), he]
          simp))
      simpa [Op.step] using this

theorem isAtPos_zero {st : St} {a : Nat} (h : isAtPos st a 0 = true) : ∃ rest, st = a :: rest := by
  cases st with
  | nil => simp [isAtPos] at h
  | cons x xs =>
    simp [isAtPos] at h
    exact ⟨xs, by rw [h]⟩

theorem binop_ok {live : List Nat} {st : St} {n a b out : Nat} (ho : out ∈ live) (h8 : out < 8)
    (hi : Inv (transfer (.binop n a b out) live) st) :
    Good sem live st (.binop n a b out) (simBinop live n a b out st) := by
  have hm : ∀ r, r ∈ st ↔ (r ∈ live ∧ r ≠ out) ∨ r = a ∨ r = b := fun r => by
    rw [hi.mem, mem_transfer]; simp [Op.defs, Op.uses]
  have ha : a ∈ st := (hm a).mpr (.inr (.inl rfl))
  have hb : b ∈ st := (hm b).mpr (.inr (.inr rfl))
  have hout : out ∉ st ∨ out = a ∨ out = b := by
    by_cases h : out ∈ st
    · rcases (hm out).mp h with h | h
      · exact absurd rfl h.2
      · exact .inr h
    · exact .inl h
  obtain ⟨ca, resta, hmva, hpa, hxa⟩ := move_ok (sem := sem) ha
  obtain ⟨hna, haa, hma⟩ := perm_rest hpa hi.nodup
  obtain ⟨cb, restb, hmvb, hpb, hxb⟩ := move_ok (sem := sem) hb
  obtain ⟨hnb, hbb, hmb⟩ := perm_rest hpb hi.nodup
  have hL : ∀ r, (¬isLive live (some out) r = true) ↔ (r ∈ live → r = out) := fun r => by
    rw [isLive_not]
    constructor
    · intro h hr; cases h hr; rfl
    · intro h hr; rw [h hr]
  have hK : ∀ r, isLive live (some out) r = true ↔ r ∈ live ∧ r ≠ out := fun r => by
    rw [isLive_iff]
    constructor
    · rintro ⟨h, h'⟩; exact ⟨h, fun e => h' (by rw [e])⟩
    · rintro ⟨h, h'⟩; exact ⟨h, fun e => h' (by cases e; rfl)⟩
  have hdup : (t : Nat) → (rest : St) → st = t :: rest → t ∉ rest ∧ rest.Nodup := fun t rest e => by
    have := hi.nodup
    rw [e] at this
    exact List.nodup_cons.mp this
  by_cases la : isLive live (some out) a = true
  · have la' := (hK a).mp la
    by_cases lb : isLive live (some out) b = true
    · have lb' := (hK b).mp lb
      have hn : out ∉ st := by
        rcases hout with h | rfl | rfl
        · exact h
        · exact absurd rfl la'.2
        · exact absurd rfl lb'.2
      obtain ⟨i, hd, hx⟩ := dup_ok (sem := sem) ha hi.nodup hi.small hn h8
      refine binop_top (t := out) (rest := st) (other := b) (rev := false) (c := [.fdup i])
        (by simp [binopPlace, la, lb, hd]) (List.mem_cons_of_mem _ hb) hi.nodup hn (by grind) hi.small h8 ?_
      intro R
      refine ⟨upd R out (R a), hx R, ?_, ?_⟩
      · intro r hr
        simp only [upd]
        rw [if_neg (by rintro rfl; exact hn hr)]
      · simp [upd, lb'.2]
    · have lb' := (hL b).mp lb
      by_cases h0 : isAtPos st a 0 = true
      · obtain ⟨rest, e⟩ := isAtPos_zero h0
        obtain ⟨l1, l2, e', _, hq⟩ := onStack_of_mem hb
        refine binop_reg (t := a) (rest := rest) (other := b) (rev := false) (c := []) (l1 := l1) (l2 := l2)
          (by simp [binopPlace, la, lb, h0]; exact e) (e ▸ e') (e ▸ hq) (e ▸ hi.nodup) (by grind) (by grind)
          (e ▸ hi.small) h8 ?_
        intro R
        rw [e]
        exact ⟨rfl, by simp⟩
      · refine binop_top (t := b) (rest := restb) (other := a) (rev := true) (c := cb)
          (by simp [binopPlace, la, lb, h0, hmvb]) (hpb.mem_iff.mpr ha) hnb (by grind) (by grind)
          (fun r hr => hi.small r ((hmb r).mp hr).1) h8 ?_
        intro R
        exact ⟨R, hxb R, fun _ _ => rfl, by simp⟩
  · have la' := (hL a).mp la
    by_cases lb : isLive live (some out) b = true
    · have lb' := (hK b).mp lb
      by_cases h0 : isAtPos st b 0 = true
      · obtain ⟨rest, e⟩ := isAtPos_zero h0
        obtain ⟨l1, l2, e', _, hq⟩ := onStack_of_mem ha
        refine binop_reg (t := b) (rest := rest) (other := a) (rev := true) (c := []) (l1 := l1) (l2 := l2)
          (by simp [binopPlace, la, lb, h0]; exact e) (e ▸ e') (e ▸ hq) (e ▸ hi.nodup) (by grind) (by grind)
          (e ▸ hi.small) h8 ?_
        intro R
        rw [e]
        exact ⟨rfl, by simp⟩
      · refine binop_top (t := a) (rest := resta) (other := b) (rev := false) (c := ca)
          (by simp [binopPlace, la, lb, h0, hmva]) (hpa.mem_iff.mpr hb) hna (by grind) (by grind)
          (fun r hr => hi.small r ((hma r).mp hr).1) h8 ?_
        intro R
        exact ⟨R, hxa R, fun _ _ => rfl, by simp⟩
    · have lb' := (hL b).mp lb
      by_cases hab : a = b
      · refine binop_top (t := a) (rest := resta) (other := b) (rev := false) (c := ca)
          (by simp [binopPlace, la, lb, hab]; rw [← hab, hmva]) (hpa.mem_iff.mpr hb) hna (by grind) (by grind)
          (fun r hr => hi.small r ((hma r).mp hr).1) h8 ?_
        intro R
        exact ⟨R, hxa R, fun _ _ => rfl, by simp⟩
      · have keepA : ∀ rest, st = a :: rest → binopPlace live a b out st = some ([], a :: rest, b, false, true, true) →
            Good sem live st (.binop n a b out) (simBinop live n a b out st) := by
          intro rest e hp
          have := hdup a rest e
          refine binop_pop (t := a) (rest := rest) (other := b) (rev := false) (c := []) hp (by grind)
            (e ▸ hi.nodup) (by grind) (by grind) (e ▸ hi.small) h8 ?_
          intro R
          rw [e]
          exact ⟨rfl, by simp⟩
        have toB : binopPlace live a b out st = some (cb, b :: restb, a, true, true, true) →
            Good sem live st (.binop n a b out) (simBinop live n a b out st) := by
          intro hp
          refine binop_pop (t := b) (rest := restb) (other := a) (rev := true) (c := cb) hp (by grind)
            (List.nodup_cons.mpr ⟨hbb, hnb⟩) (by grind) (by grind) (fun r hr => hi.small r (hpb.mem_iff.mp hr)) h8 ?_
          intro R
          exact ⟨hxb R, by simp⟩
        have toA : binopPlace live a b out st = some (ca, a :: resta, b, false, true, true) →
            Good sem live st (.binop n a b out) (simBinop live n a b out st) := by
          intro hp
          refine binop_pop (t := a) (rest := resta) (other := b) (rev := false) (c := ca) hp (by grind)
            (List.nodup_cons.mpr ⟨haa, hna⟩) (by grind) (by grind) (fun r hr => hi.small r (hpa.mem_iff.mp hr)) h8 ?_
          intro R
          exact ⟨hxa R, by simp⟩
        by_cases h0 : isAtPos st a 0 = true
        · obtain ⟨rest, e⟩ := isAtPos_zero h0
          exact keepA rest e (by simp [binopPlace, la, lb, hab, h0]; exact e)
        · by_cases h1 : isAtPos st b 0 = true
          · obtain ⟨rest, e⟩ := isAtPos_zero h1
            have := hdup b rest e
            refine binop_pop (t := b) (rest := rest) (other := a) (rev := true) (c := [])
              (by simp [binopPlace, la, lb, hab, h0, h1]; exact e) (by grind)
              (e ▸ hi.nodup) (by grind) (by grind) (e ▸ hi.small) h8 ?_
            intro R
            rw [e]
            exact ⟨rfl, by simp⟩
          · by_cases h2 : isAtPos st a 1 = true
            · exact toB (by simp [binopPlace, la, lb, hab, h0, h1, h2, hmvb])
            · exact toA (by simp [binopPlace, la, lb, hab, h0, h1, h2, hmva])

theorem inv_perm {live : List Nat} {st st' : St} (hp : st'.Perm st) (hn : st.Nodup) (hs : ∀ r ∈ st, r < 8)
    (hm : ∀ r, r ∈ st ↔ r ∈ live) : Inv live st' :=
  ⟨hp.nodup_iff.mpr hn, fun r => by rw [hp.mem_iff, hm], fun r h => hs r (hp.mem_iff.mp h)⟩

theorem inv_rest {live : List Nat} {st rest : St} {a : Nat} (hp : (a :: rest).Perm st) (hn : st.Nodup)
    (hs : ∀ r ∈ st, r < 8) (hm : ∀ r, r ∈ st ↔ r ∈ live ∨ r = a) (hd : a ∉ live) : Inv live rest := by
  obtain ⟨h1, h2, h3⟩ := perm_rest hp hn
  exact ⟨h1, by grind, fun r h => hs r ((h3 r).mp h).1⟩

theorem dead_iff {live : List Nat} {r : Nat} : (!isLive live none r) = true ↔ r ∉ live := by
  simp [isLive]

theorem live_iff {live : List Nat} {r : Nat} : isLive live none r = true ↔ r ∈ live := by
  simp [isLive]

theorem exec_fst_pop {n a : Nat} {rest : St} (R : Nat → V) :
    exec sem ((a :: rest).map R) [.fst n true] = some ([.store n (R a)], rest.map R) :=
  exec_one (by simp [exec1])

theorem store_ok {live : List Nat} {st : St} {n a bits : Nat}
    (hi : Inv (transfer (.store n a bits) live) st) :
    Good sem live st (.store n a bits) (simStore live n a bits st) := by
  have hm : ∀ r, r ∈ st ↔ r ∈ live ∨ r = a := fun r => by
    rw [hi.mem, mem_transfer]; simp [Op.defs, Op.uses]
  have ha : a ∈ st := (hm a).mpr (.inr rfl)
  obtain ⟨c, rest, hmv, hp, hx⟩ := move_ok (sem := sem) ha
  unfold simStore
  by_cases hl : (!isLive live none a) = true
  · rw [if_pos hl]
    refine ⟨_, rest, andThen_some hmv rfl, inv_rest hp hi.nodup hi.small hm (dead_iff.mp hl), fun R => ?_⟩
    have := exec_append (hx R) (exec_fst_pop (n := n) R)
    simpa [Op.step] using this
  · rw [if_neg hl]
    have hl : a ∈ live := by
      by_cases h : a ∈ live
      · exact h
      · exact absurd (dead_iff.mpr h) hl
    have hm' : ∀ r, r ∈ st ↔ r ∈ live := fun r => by
      rw [hm]
      exact ⟨fun h => h.elim id (fun e => e ▸ hl), .inl⟩
    have hI := inv_perm hp hi.nodup hi.small hm'
    by_cases hb : bits > 64
    · rw [if_pos hb]
      by_cases h8 : st.length < 8
      · rw [if_pos h8]
        cases hf : findUnused st with
        | none =>
          exfalso
          unfold findUnused at hf
          rw [List.find?_eq_none] at hf
          have := Verif.Model.Perm.length_le_of_subset (l := List.range 8) (l' := st) List.nodup_range (fun x hx => by
            have := hf x hx
            simpa using this)
          simp at this
          omega
        | some out =>
          dsimp only
          unfold findUnused at hf
          have h1 := List.find?_some hf
          have h2 := List.mem_of_find?_eq_some hf
          have hn : out ∉ st := by simpa using h1
          obtain ⟨i, hd, hdx⟩ := dup_ok (sem := sem) ha hi.nodup hi.small hn (by simpa using h2)
          refine ⟨_, st, andThen_some hd rfl, ⟨hi.nodup, hm', hi.small⟩, fun R => ?_⟩
          have := exec_append (hdx R) (exec_fst_pop (n := n) (upd R out (R a)))
          rw [map_upd hn] at this
          simpa [Op.step, upd] using this
      · rw [if_neg h8]
        refine ⟨_, a :: rest, andThen_some hmv rfl, hI, fun R => ?_⟩
        have := exec_append (hx R) (exec_one (sem := sem) (i := .fstpFld n) (e := [.store n (R a)])
          (s1 := (a :: rest).map R) (by simp [exec1]))
        simpa [Op.step] using this
    · rw [if_neg hb]
      refine ⟨_, a :: rest, andThen_some hmv rfl, hI, fun R => ?_⟩
      have := exec_append (hx R) (exec_one (sem := sem) (i := .fst n false) (e := [.store n (R a)])
        (s1 := (a :: rest).map R) (by simp [exec1]))
      simpa [Op.step] using this

theorem storePop_ok {live : List Nat} {st : St} {n a : Nat} (hd : a ∉ live)
    (hi : Inv (transfer (.storePop n a) live) st) :
    Good sem live st (.storePop n a) (simStorePop live n a st) := by
  have hm : ∀ r, r ∈ st ↔ r ∈ live ∨ r = a := fun r => by
    rw [hi.mem, mem_transfer]; simp [Op.defs, Op.uses]
  have ha : a ∈ st := (hm a).mpr (.inr rfl)
  obtain ⟨c, rest, hmv, hp, hx⟩ := move_ok (sem := sem) ha
  unfold simStorePop
  rw [if_neg (by rw [live_iff]; exact hd)]
  refine ⟨_, rest, andThen_some hmv rfl, inv_rest hp hi.nodup hi.small hm hd, fun R => ?_⟩
  have := exec_append (hx R) (exec_fst_pop (n := n) R)
  simpa [Op.step] using this

theorem test_ok {live : List Nat} {st : St} {n a : Nat}
    (hi : Inv (transfer (.test n a) live) st) : Good sem live st (.test n a) (simTest live n a st) := by
  have hm : ∀ r, r ∈ st ↔ r ∈ live ∨ r = a := fun r => by
    rw [hi.mem, mem_transfer]; simp [Op.defs, Op.uses]
  have ha : a ∈ st := (hm a).mpr (.inr rfl)
  obtain ⟨c, rest, hmv, hp, hx⟩ := move_ok (sem := sem) ha
  have hf : ∀ R : Nat → V, exec sem ((a :: rest).map R) [.ftst n] = some ([.test n (R a)], (a :: rest).map R) :=
    fun R => exec_one (by simp [exec1])
  unfold simTest
  by_cases hl : (!isLive live none a) = true
  · refine ⟨_, rest, andThen_some hmv (andThen_some rfl (by rw [if_pos hl]; exact (fpop_zero (sem := sem)).1)),
      inv_rest hp hi.nodup hi.small hm (dead_iff.mp hl), fun R => ?_⟩
    have := exec_append (hx R) (exec_append (hf R) (fpop_zero.2 R))
    simpa [Op.step] using this
  · have hl' : a ∈ live := by
      by_cases h : a ∈ live
      · exact h
      · exact absurd (dead_iff.mpr h) hl
    have hm' : ∀ r, r ∈ st ↔ r ∈ live := fun r => by
      rw [hm]
      exact ⟨fun h => h.elim id (fun e => e ▸ hl'), .inl⟩
    refine ⟨_, a :: rest, andThen_some hmv (andThen_some rfl (by rw [if_neg hl])),
      inv_perm hp hi.nodup hi.small hm', fun R => ?_⟩
    have := exec_append (hx R) (hf R)
    simpa [Op.step] using this

/-! comparisons -/

theorem compare_fin {live : List Nat} {st st1 : St} {n a b t other pops : Nat} {rev status : Bool} {c : List Insn}
    {rest : St} (hp : comparePlace live a b st = some (c, st1, rev, pops)) (he : st1 = t :: rest)
    (hperm : st1.Perm st) (hoth : other ∈ st1) (ho : other = if rev then a else b) (ht : t = if rev then b else a)
    (hn : st.Nodup) (hs : ∀ r ∈ st, r < 8)
    (hm : ∀ r, r ∈ st ↔ r ∈ live ∨ r = t ∨ r = other) (hx : ∀ R : Nat → V, exec sem (st.map R) c = some ([], st1.map R))
    (hpops : (pops = 0 ∧ t ∈ live ∧ other ∈ live) ∨ (pops = 1 ∧ t ∉ live ∧ (other = t ∨ other ∈ live)) ∨
      (pops = 2 ∧ t ≠ other ∧ t ∉ live ∧ other ∉ live)) :
    Good sem live st (.compare n a b status) (simCompare live n a b status st) := by
  subst he
  obtain ⟨l1, l2, e, hnot, hq⟩ := onStack_of_mem hoth
  obtain ⟨hrn, htr, hrm⟩ := perm_rest hperm hn
  have hev : ∀ R : Nat → V, (if rev then Event.compare n (R other) (R t) else Event.compare n (R t) (R other)) = Event.compare n (R a) (R b) := by
    intro R
    cases rev <;> simp_all
  have hf : ∀ (R : Nat → V) (pop : Bool), exec sem ((t :: rest).map R) [.fucom n l1.length rev pop] =
      some ([.compare n (R a) (R b)], if pop then rest.map R else (t :: rest).map R) := by
    intro R pop
    refine exec_one ?_
    have hg : ((t :: rest).map R)[l1.length]? = some (R other) := by rw [e]; simp
    have h0 : ((t :: rest).map R)[0]? = some (R t) := by simp
    simp only [exec1, hg, h0, hev R]
    simp
  unfold simCompare
  rw [hp]
  dsimp only
  rw [← ho, hq]
  rcases hpops with ⟨rfl, h1, h2⟩ | ⟨rfl, h1, h2⟩ | ⟨rfl, h0, h1, h2⟩
  · refine ⟨c ++ [.fucom n l1.length rev false], t :: rest, by simp, inv_perm hperm hn hs (by grind), fun R => ?_⟩
    have := exec_append (hx R) (hf R false)
    simpa [Op.step] using this
  · refine ⟨c ++ [.fucom n l1.length rev true], rest, by simp, ⟨hrn, by grind, fun r h => hs r ((hrm r).mp h).1⟩, fun R => ?_⟩
    have := exec_append (hx R) (hf R true)
    simpa [Op.step] using this
  · cases l1 with
    | nil =>
      simp only [List.nil_append, List.cons.injEq] at e
      exact absurd e.1 h0
    | cons t' l1 =>
      simp only [List.cons_append, List.cons.injEq] at e
      obtain ⟨rfl, e⟩ := e
      have hlen : (t :: l1).length - 1 = l1.length := by simp
      dsimp only
      rw [if_neg (by omega), if_neg (by omega), hlen]
      have hrn' := hrn
      rw [e, List.nodup_append, List.nodup_cons] at hrn'
      cases l1 with
      | nil =>
        simp only [List.nil_append] at e
        have hI : Inv live l2 := ⟨hrn'.2.1.2, by grind, fun r h => hs r ((hrm r).mp (by rw [e]; exact List.mem_cons_of_mem _ h)).1⟩
        cases status with
        | true =>
          refine ⟨c ++ [.fucompp n rev], l2, by simp [e], hI, fun R => ?_⟩
          have := exec_append (hx R) (exec_one (sem := sem) (i := .fucompp n rev) (e := [.compare n (R a) (R b)]) (s1 := l2.map R) (by
            rw [e]
            simp only [List.map_cons, exec1, hev R]))
          simpa [Op.step] using this
        | false =>
          refine ⟨_, l2, by
            rw [if_neg (by simp)]
            refine andThen_some (c' := [.fpop 0]) rfl ?_
            rw [e]
            exact (fpop_zero (sem := sem)).1, hI, fun R => ?_⟩
          have h3 := fpop_zero (sem := sem) (t := other) (rest := l2)
          have := exec_append (exec_append (hx R) (hf R true)) (by
            have := h3.2 R
            rw [← e] at this
            exact this)
          simpa [Op.step] using this
      | cons u l1 =>
        have hf0 : (status && (u :: l1).length == 0) = false := by simp
        rw [hf0, if_neg (by simp)]
        have h3 := fpop_mid (sem := sem) (t := u) (y := other) (l1 := l1) (l2 := l2)
        have hpm : (l1 ++ u :: l2).Perm (u :: l1 ++ l2) := List.perm_middle
        have hu : ∀ r, r ∈ l1 ++ u :: l2 ↔ r ∈ rest ∧ r ≠ other := by
          intro r
          rw [hpm.mem_iff, e]
          have := hrn'.2.1.1
          have h4 := hrn'.2.2
          simp only [List.mem_append, List.mem_cons]
          constructor
          · intro h
            refine ⟨by rcases h with h | h <;> simp_all, ?_⟩
            rintro rfl
            rcases h with h | h
            · exact h4 r (by simpa using h) r (by simp) rfl
            · exact this h
          · rintro ⟨h | h | h, hne⟩
            · exact .inl h
            · exact absurd h hne
            · exact .inr h
        have hnd : (l1 ++ u :: l2).Nodup := by
          rw [hpm.nodup_iff, List.nodup_append]
          exact ⟨hrn'.1, hrn'.2.1.2, fun x hx y hy => hrn'.2.2 x hx y (List.mem_cons_of_mem _ hy)⟩
        refine ⟨_, l1 ++ u :: l2, by
            refine andThen_some (c' := [.fpop (l1.length + 1)]) rfl ?_
            rw [e]
            exact h3.1, ⟨hnd, by grind, fun r h => hs r ((hrm r).mp ((hu r).mp h).1).1⟩, fun R => ?_⟩
        have := exec_append (exec_append (hx R) (hf R true)) (by
            have := h3.2 R
            rw [← e] at this
            exact this)
        simpa [Op.step] using this

theorem compare_ok {live : List Nat} {st : St} {n a b : Nat} {status : Bool}
    (hi : Inv (transfer (.compare n a b status) live) st) :
    Good sem live st (.compare n a b status) (simCompare live n a b status st) := by
  have hm : ∀ r, r ∈ st ↔ r ∈ live ∨ r = a ∨ r = b := fun r => by
    rw [hi.mem, mem_transfer]; simp [Op.defs, Op.uses]
  have ha : a ∈ st := (hm a).mpr (.inr (.inl rfl))
  have hb : b ∈ st := (hm b).mpr (.inr (.inr rfl))
  obtain ⟨ca, resta, hmva, hpa, hxa⟩ := move_ok (sem := sem) ha
  obtain ⟨cb, restb, hmvb, hpb, hxb⟩ := move_ok (sem := sem) hb
  have toA : ∀ pops, comparePlace live a b st = some (ca, a :: resta, false, pops) → ((pops = 0 ∧ a ∈ live ∧ b ∈ live) ∨ (pops = 1 ∧ a ∉ live ∧ (b = a ∨ b ∈ live)) ∨
      (pops = 2 ∧ a ≠ b ∧ a ∉ live ∧ b ∉ live)) → Good sem live st (.compare n a b status) (simCompare live n a b status st) := by
    intro pops h1 h2
    exact compare_fin (t := a) (other := b) h1 rfl hpa (hpa.mem_iff.mpr hb) (by simp) (by simp) hi.nodup hi.small hm hxa h2
  have toB : ∀ pops, comparePlace live a b st = some (cb, b :: restb, true, pops) → ((pops = 0 ∧ b ∈ live ∧ a ∈ live) ∨ (pops = 1 ∧ b ∉ live ∧ (a = b ∨ a ∈ live)) ∨
      (pops = 2 ∧ b ≠ a ∧ b ∉ live ∧ a ∉ live)) → Good sem live st (.compare n a b status) (simCompare live n a b status st) := by
    intro pops h1 h2
    exact compare_fin (t := b) (other := a) h1 rfl hpb (hpb.mem_iff.mpr ha) (by simp) (by simp) hi.nodup hi.small (by grind) hxb h2
  have atA : ∀ pops, isAtPos st a 0 = true → comparePlace live a b st = some ([], st, false, pops) → ((pops = 0 ∧ a ∈ live ∧ b ∈ live) ∨ (pops = 1 ∧ a ∉ live ∧ (b = a ∨ b ∈ live)) ∨
      (pops = 2 ∧ a ≠ b ∧ a ∉ live ∧ b ∉ live)) → Good sem live st (.compare n a b status) (simCompare live n a b status st) := by
    intro pops h0 h1 h2
    obtain ⟨rest, e⟩ := isAtPos_zero h0
    exact compare_fin (t := a) (other := b) h1 e (List.Perm.refl _) hb (by simp) (by simp) hi.nodup hi.small hm (fun R => rfl) h2
  have atB : ∀ pops, isAtPos st b 0 = true → comparePlace live a b st = some ([], st, true, pops) → ((pops = 0 ∧ b ∈ live ∧ a ∈ live) ∨ (pops = 1 ∧ b ∉ live ∧ (a = b ∨ a ∈ live)) ∨
      (pops = 2 ∧ b ≠ a ∧ b ∉ live ∧ a ∉ live)) → Good sem live st (.compare n a b status) (simCompare live n a b status st) := by
    intro pops h0 h1 h2
    obtain ⟨rest, e⟩ := isAtPos_zero h0
    exact compare_fin (t := b) (other := a) h1 e (List.Perm.refl _) ha (by simp) (by simp) hi.nodup hi.small (by grind) (fun R => rfl) h2
  by_cases la : a ∈ live
  · have la' := live_iff.mpr la
    by_cases lb : b ∈ live
    · have lb' := live_iff.mpr lb
      by_cases h0 : isAtPos st b 0 = true
      · exact atB 0 h0 (by simp [comparePlace, la', lb', h0]) (.inl ⟨rfl, lb, la⟩)
      · exact toA 0 (by simp [comparePlace, la', lb', h0, hmva]) (.inl ⟨rfl, la, lb⟩)
    · have lb' : isLive live none b = false := by simpa [isLive] using lb
      exact toB 1 (by simp [comparePlace, la', lb', hmvb]) (.inr (.inl ⟨rfl, lb, .inr la⟩))
  · have la' : isLive live none a = false := by simpa [isLive] using la
    by_cases lb : b ∈ live
    · have lb' := live_iff.mpr lb
      exact toA 1 (by simp [comparePlace, la', lb', hmva]) (.inr (.inl ⟨rfl, la, .inr lb⟩))
    · have lb' : isLive live none b = false := by simpa [isLive] using lb
      by_cases hab : a = b
      · exact toA 1 (by simp [comparePlace, la', lb', hab]; rw [← hab, hmva]) (.inr (.inl ⟨rfl, la, .inl hab.symm⟩))
      · by_cases h0 : isAtPos st a 0 = true
        · exact atA 2 h0 (by simp [comparePlace, la', lb', hab, h0]) (.inr (.inr ⟨rfl, hab, la, lb⟩))
        · by_cases h1 : isAtPos st b 0 = true
          · exact atB 2 h1 (by simp [comparePlace, la', lb', hab, h0, h1]) (.inr (.inr ⟨rfl, fun e => hab e.symm, lb, la⟩))
          · by_cases h2 : isAtPos st a 1 = true
            · exact toB 2 (by simp [comparePlace, la', lb', hab, h0, h1, h2, hmvb]) (.inr (.inr ⟨rfl, fun e => hab e.symm, lb, la⟩))
            · exact toA 2 (by simp [comparePlace, la', lb', hab, h0, h1, h2, hmva]) (.inr (.inr ⟨rfl, hab, la, lb⟩))

/-! permutations -/

/-- the register after the permutation -/
def sig (l : List (Nat × Nat)) (x : Nat) : Nat :=
  match l.find? fun p => p.1 == x with
  | some p => p.2
  | none => x

theorem sig_mem {l : List (Nat × Nat)} (hn : (l.map (·.1)).Nodup) {a out : Nat} (h : (a, out) ∈ l) : sig l a = out := by
  induction l with
  | nil => cases h
  | cons p l ih =>
    simp only [List.map_cons, List.nodup_cons] at hn
    unfold sig
    rw [List.find?_cons]
    rcases List.mem_cons.mp h with e | h
    · subst e
      simp
    · have hne : (p.1 == a) = false := by
        simp only [beq_eq_false_iff_ne, ne_eq]
        intro e
        exact hn.1 (List.mem_map.mpr ⟨(a, out), h, e.symm⟩)
      rw [hne]
      exact ih hn.2 h

theorem sig_not {l : List (Nat × Nat)} {a : Nat} (h : a ∉ l.map (·.1)) : sig l a = a := by
  unfold sig
  have : (l.find? fun p => p.1 == a) = none := by
    rw [List.find?_eq_none]
    intro p hp
    simp only [beq_iff_eq]
    rintro rfl
    exact h (List.mem_map.mpr ⟨p, hp, rfl⟩)
  rw [this]

theorem permRegs_mem {l : List (Nat × Nat)} (hn : (l.map (·.2)).Nodup) {a out : Nat} (h : (a, out) ∈ l)
    (R : Nat → V) : permRegs R l out = R a := by
  induction l with
  | nil => cases h
  | cons p l ih =>
    simp only [List.map_cons, List.nodup_cons] at hn
    unfold permRegs
    rw [List.find?_cons]
    rcases List.mem_cons.mp h with e | h
    · subst e
      simp
    · have hne : (p.2 == out) = false := by
        simp only [beq_eq_false_iff_ne, ne_eq]
        intro e
        exact hn.1 (List.mem_map.mpr ⟨(a, out), h, e.symm⟩)
      rw [hne]
      exact ih hn.2 h

theorem permRegs_not {l : List (Nat × Nat)} {a : Nat} (h : a ∉ l.map (·.2)) (R : Nat → V) : permRegs R l a = R a := by
  unfold permRegs
  have : (l.find? fun p => p.2 == a) = none := by
    rw [List.find?_eq_none]
    intro p hp
    simp only [beq_iff_eq]
    rintro rfl
    exact h (List.mem_map.mpr ⟨p, hp, rfl⟩)
  rw [this]

theorem permLoop_eq {old : St} (hold : old.Nodup) {l : List (Nat × Nat)} (hn : (l.map (·.1)).Nodup)
    (hl : ∀ p ∈ l, p.1 ∈ old) :
    ∀ st : St, st.length = old.length → ∃ st' : St, permLoop old l st = some st' ∧ st'.length = old.length ∧
      ∀ (i x y : Nat), old[i]? = some x → st[i]? = some y →
        st'[i]? = some (if x ∈ l.map (·.1) then sig l x else y) := by
  induction l with
  | nil => intro st h; exact ⟨st, rfl, h, fun i x y _ hy => by simpa using hy⟩
  | cons p l ih =>
    obtain ⟨a, out⟩ := p
    intro st h
    simp only [List.map_cons, List.nodup_cons] at hn
    obtain ⟨l1, l2, e, hnot, hq⟩ := onStack_of_mem (hl (a, out) (List.mem_cons_self ..))
    have hlt : l1.length < st.length := by rw [h, e]; simp
    obtain ⟨st', h1, h2, h3⟩ := ih hn.2 (fun q hq => hl q (List.mem_cons_of_mem _ hq)) (st.set l1.length out) (by simpa using h)
    refine ⟨st', ?_, h2, ?_⟩
    · simp only [permLoop]
      dsimp only at hq
      rw [hq]
      simp only [setSt, if_pos hlt]
      exact h1
    · intro i x y hx hy
      by_cases hi : i = l1.length
      · subst hi
        have : x = a := by
          rw [e, getElem_mid] at hx
          cases hx; rfl
        subst this
        have h4 := h3 l1.length x out hx (by rw [List.getElem?_set_self hlt])
        rw [if_neg hn.1] at h4
        rw [h4, if_pos (by simp), sig_mem (a := x) (out := out) (by simpa using hn) (by simp)]
      · have hxa : x ≠ a := by
          rintro rfl
          have h5 : old[l1.length]? = some x := by rw [e]; exact getElem_mid _ _ _
          have hi' : i < old.length := by
            rw [List.getElem?_eq_some_iff] at hx; exact hx.1
          rw [← h5] at hx
          exact hi ((List.getElem?_inj hi' hold).mp hx)
        have h4 := h3 i x y hx (by rw [List.getElem?_set_ne (fun e => hi e.symm)]; exact hy)
        rw [h4]
        have e1 : (x ∈ ((a, out) :: l).map (·.1)) ↔ x ∈ l.map (·.1) := by
          simp only [List.map_cons, List.mem_cons]
          exact ⟨fun h => h.elim (fun e => absurd e hxa) id, .inr⟩
        have e2 : sig ((a, out) :: l) x = sig l x := by
          unfold sig
          rw [List.find?_cons]
          have : (a == x) = false := by simpa using fun e : a = x => hxa e.symm
          rw [this]
        rw [e2]
        by_cases hx' : x ∈ l.map (·.1)
        · rw [if_pos hx', if_pos (e1.mpr hx')]
        · rw [if_neg hx', if_neg (fun h => hx' (e1.mp h))]

theorem perm_ok {live : List Nat} {st : St} {l : List (Nat × Nat)} (hins : (l.map (·.1)).Nodup)
    (houts : (l.map (·.2)).Nodup) (ho : ∀ r ∈ l.map (·.2), r ∈ live ∧ r < 8)
    (hd : ∀ r ∈ l.map (·.1), r ∈ live → r ∈ l.map (·.2))
    (hi : Inv (transfer (.perm l) live) st) :
    Good sem live st (.perm l) ((permLoop st l st).map fun st => ([], st)) := by
  have hm : ∀ r, r ∈ st ↔ (r ∈ live ∧ r ∉ l.map (·.2)) ∨ r ∈ l.map (·.1) := fun r => by
    rw [hi.mem, mem_transfer]; rfl
  obtain ⟨st', h1, h2, h3⟩ := permLoop_eq hi.nodup hins (fun p hp => (hm p.1).mpr (.inr (List.mem_map.mpr ⟨p, hp, rfl⟩))) st rfl
  have he : st' = st.map (sig l) := by
    apply List.ext_getElem?
    intro i
    rw [List.getElem?_map]
    cases hx : st[i]? with
    | none =>
      rw [List.getElem?_eq_none_iff] at hx
      rw [Option.map_none, List.getElem?_eq_none_iff]
      omega
    | some x =>
      rw [h3 i x x hx hx]
      by_cases h : x ∈ l.map (·.1)
      · rw [if_pos h]; rfl
      · rw [if_neg h, ← sig_not h]
        simp [sig_not h]
  subst he
  have hin : ∀ x ∈ l.map (·.1), (x, sig l x) ∈ l := by
    intro x hx
    obtain ⟨⟨a, o⟩, hp, rfl⟩ := List.mem_map.mp hx
    rw [sig_mem hins hp]
    exact hp
  have hsx : ∀ x ∈ st, x ∉ l.map (·.1) → x ∉ l.map (·.2) := by
    intro x hx hn ho
    rcases (hm x).mp hx with h | h
    · exact h.2 ho
    · exact hn h
  refine ⟨[], _, by rw [h1]; rfl, ⟨?_, ?_, ?_⟩, ?_⟩
  · have := hi.nodup
    unfold List.Nodup at this ⊢
    rw [List.pairwise_map]
    refine List.Pairwise.imp_of_mem (fun {x y} hx hy hne => ?_) this
    intro heq
    by_cases h1 : x ∈ l.map (·.1)
    · by_cases h2 : y ∈ l.map (·.1)
      · have ha := hin x h1
        have hb := hin y h2
        rw [← heq] at hb
        have e1 := permRegs_mem houts ha id
        have e2 := permRegs_mem houts hb id
        simp only [id] at e1 e2
        exact hne (e1.symm.trans e2)
      · have ha := hin x h1
        rw [heq, sig_not h2] at ha
        exact hsx y hy h2 (List.mem_map.mpr ⟨_, ha, rfl⟩)
    · by_cases h2 : y ∈ l.map (·.1)
      · have hb := hin y h2
        rw [← heq, sig_not h1] at hb
        exact hsx x hx h1 (List.mem_map.mpr ⟨_, hb, rfl⟩)
      · rw [sig_not h1, sig_not h2] at heq
        exact hne heq
  · intro r
    rw [List.mem_map]
    constructor
    · rintro ⟨x, hx, rfl⟩
      by_cases h : x ∈ l.map (·.1)
      · exact (ho _ (List.mem_map.mpr ⟨_, hin x h, rfl⟩)).1
      · rw [sig_not h]
        rcases (hm x).mp hx with h' | h'
        · exact h'.1
        · exact absurd h' h
    · intro hr
      by_cases h : r ∈ l.map (·.2)
      · obtain ⟨⟨a, o⟩, hp, rfl⟩ := List.mem_map.mp h
        exact ⟨a, (hm a).mpr (.inr (List.mem_map.mpr ⟨_, hp, rfl⟩)), sig_mem hins hp⟩
      · exact ⟨r, (hm r).mpr (.inl ⟨hr, h⟩), sig_not fun h' => h (hd r h' hr)⟩
  · intro r hr
    obtain ⟨x, hx, rfl⟩ := List.mem_map.mp hr
    by_cases h : x ∈ l.map (·.1)
    · exact (ho _ (List.mem_map.mpr ⟨_, hin x h, rfl⟩)).2
    · rw [sig_not h]; exact hi.small x hx
  · intro R
    simp only [exec, Op.step, List.map_map]
    congr 2
    apply List.map_congr_left
    intro x hx
    simp only [Function.comp]
    by_cases h : x ∈ l.map (·.1)
    · rw [permRegs_mem houts (hin x h)]
    · rw [sig_not h, permRegs_not (hsx x hx h)]

/-! removal of dead registers -/

theorem killLoop_ok {live : List Nat} : ∀ (fuel : Nat) (st : St), st.length ≤ fuel → st.Nodup →
    ∃ c st', killLoop fuel (st.map fun r => !isLive live none r) st = some (c, st') ∧ st'.Nodup ∧
      (∀ r, r ∈ st' ↔ r ∈ st ∧ r ∈ live) ∧ ∀ R : Nat → V, exec sem (st.map R) c = some ([], st'.map R) := by
  intro fuel
  induction fuel with
  | zero =>
    intro st h hn
    have : st = [] := List.eq_nil_of_length_eq_zero (by omega)
    subst this
    exact ⟨[], [], rfl, hn, by simp, fun R => rfl⟩
  | succ fuel ih =>
    intro st h hn
    unfold killLoop
    by_cases hany : (st.map fun r => !isLive live none r).any id = true
    · rw [if_pos hany]
      cases st with
      | nil => simp at hany
      | cons t rest =>
        have hnt := List.nodup_cons.mp hn
        by_cases ht : (!isLive live none t) = true
        · rw [if_pos (by simp only [List.map_cons, List.head?_cons, ht])]
          obtain ⟨c, st', h1, h2, h3, h4⟩ := ih rest (by simpa using h) hnt.2
          have hf := fpop_zero (sem := sem) (t := t) (rest := rest)
          refine ⟨_, st', andThen_some hf.1 h1, h2, ?_, fun R => ?_⟩
          · intro r
            rw [h3, List.mem_cons]
            have := dead_iff.mp ht
            constructor
            · rintro ⟨h, h'⟩; exact ⟨.inr h, h'⟩
            · rintro ⟨rfl | h, h'⟩
              · exact absurd h' this
              · exact ⟨h, h'⟩
          · have := exec_append (hf.2 R) (h4 R)
            simpa using this
        · have htf : (!isLive live none t) = false := by simpa using ht
          rw [if_neg (by simp only [List.map_cons, List.head?_cons, htf]; simp)]
          cases hf : (List.range ((t :: rest).map fun r => !isLive live none r).length).reverse.find?
              (fun i => ((t :: rest).map fun r => !isLive live none r)[i]? == some true) with
          | none =>
            exfalso
            rw [List.find?_eq_none] at hf
            rw [List.any_eq_true] at hany
            obtain ⟨x, hx, hxt⟩ := hany
            obtain ⟨i, hi, hxi⟩ := List.getElem_of_mem hx
            have := hf i (by simpa using hi)
            rw [List.getElem?_eq_getElem hi, hxi] at this
            simp only [id] at hxt
            rw [hxt] at this
            simp at this
          | some i =>
            dsimp only
            have h1 := List.find?_some hf
            have h2 := List.mem_of_find?_eq_some hf
            have hi : i < (t :: rest).length := by simpa using h2
            simp only [beq_iff_eq] at h1
            cases i with
            | zero =>
              simp only [List.map_cons, List.getElem?_cons_zero, Option.some.injEq] at h1
              exact absurd h1 ht
            | succ j =>
              simp only [List.length_cons, Nat.add_lt_add_iff_right] at hi
              obtain ⟨l1, y, l2, e, hl⟩ : ∃ l1 y l2, rest = l1 ++ y :: l2 ∧ l1.length = j :=
                ⟨rest.take j, rest[j], rest.drop (j + 1), by simp, by simp; omega⟩
              subst e
              subst hl
              have hy : (!isLive live none y) = true := by simpa using h1
              have hfp := fpop_mid (sem := sem) (t := t) (y := y) (l1 := l1) (l2 := l2)
              have hmask : (((t :: (l1 ++ y :: l2)).map fun r => !isLive live none r).set (l1.length + 1) false).tail =
                  (l1 ++ t :: l2).map fun r => !isLive live none r := by
                simp [htf]
              have hnd := hnt.2
              rw [List.nodup_append, List.nodup_cons] at hnd
              have hn' : (l1 ++ t :: l2).Nodup := (set_mem hnt.2 (.inl hnt.1)).1
              have hm' := (set_mem hnt.2 (.inl hnt.1)).2
              obtain ⟨c, st', h5, h6, h7, h8⟩ := ih (l1 ++ t :: l2) (by simp at h ⊢; omega) hn'
              rw [hmask]
              refine ⟨_, st', andThen_some hfp.1 h5, h6, ?_, fun R => ?_⟩
              · intro r
                rw [h7, hm' r, List.mem_cons]
                have := dead_iff.mp hy
                constructor
                · rintro ⟨rfl | ⟨h, _⟩, h'⟩
                  · exact ⟨.inl rfl, h'⟩
                  · exact ⟨.inr h, h'⟩
                · rintro ⟨rfl | h, h'⟩
                  · exact ⟨.inl rfl, h'⟩
                  · exact ⟨.inr ⟨h, by rintro rfl; exact this h'⟩, h'⟩
              · have := exec_append (hfp.2 R) (h8 R)
                simpa using this
    · rw [if_neg hany]
      refine ⟨[], st, rfl, hn, ?_, fun R => rfl⟩
      intro r
      constructor
      · intro hr
        refine ⟨hr, ?_⟩
        by_cases hl : r ∈ live
        · exact hl
        · exfalso
          apply hany
          rw [List.any_eq_true]
          exact ⟨_, List.mem_map.mpr ⟨r, hr, rfl⟩, dead_iff.mpr hl⟩
      · exact And.left

theorem kill_ok {emms : Bool} {live : List Nat} {st : St} (hn : st.Nodup) (hl : ∀ r ∈ live, r ∈ st)
    (hs : ∀ r ∈ st, r < 8) :
    ∃ c st', killDeads emms live st = some (c, st') ∧ Inv live st' ∧
      ∀ R : Nat → V, exec sem (st.map R) c = some ([], st'.map R) := by
  unfold killDeads
  by_cases h0 : st.length = 0
  · rw [if_pos h0]
    have : st = [] := List.eq_nil_of_length_eq_zero h0
    subst this
    exact ⟨[], [], rfl, ⟨hn, fun r => ⟨(fun h => nomatch h), hl r⟩, hs⟩, fun R => rfl⟩
  · rw [if_neg h0]
    by_cases he : (live.isEmpty && emms) = true
    · rw [if_pos he]
      simp only [Bool.and_eq_true, List.isEmpty_iff] at he
      obtain ⟨rfl, -⟩ := he
      exact ⟨[.emms], [], rfl, ⟨List.nodup_nil, fun r => Iff.rfl, (fun r h => nomatch h)⟩, fun R => exec_one rfl⟩
    · rw [if_neg he]
      obtain ⟨c, st', h1, h2, h3, h4⟩ := killLoop_ok (sem := sem) (live := live) st.length st (Nat.le_refl _) hn
      exact ⟨c, st', h1, ⟨h2, fun r => ⟨fun h => ((h3 r).mp h).2, fun h => (h3 r).mpr ⟨hl r h, h⟩⟩,
        fun r h => hs r ((h3 r).mp h).1⟩, h4⟩

/-! ### Blocks -/

theorem mem_liveIn {live : List Nat} : ∀ {os : List Op} {r : Nat}, r ∈ liveIn live os ↔ Needed live os r := by
  intro os
  induction os with
  | nil => intro r; exact Iff.rfl
  | cons o os ih =>
    intro r
    simp only [liveIn, Needed]
    rw [mem_transfer, ih]
    constructor
    · rintro (h | h)
      · exact .inr ⟨h.2, h.1⟩
      · exact .inl h
    · rintro (h | h)
      · exact .inr h
      · exact .inl ⟨h.2, h.1⟩

theorem simOp_ok {emms : Bool} {live : List Nat} {st : St} {o : Op} (hw : Wf (· ∈ live) o) (hi : Inv (transfer o live) st) :
    Good sem live st o (simOp emms live st o) := by
  cases o with
  | load n out => exact load_ok (hw.1 out (by simp [Op.defs])).1 (hw.1 out (by simp [Op.defs])).2 hi
  | unop n a out => exact unop_ok (hw.1 out (by simp [Op.defs])).1 (hw.1 out (by simp [Op.defs])).2 hi
  | binop n a b out => exact binop_ok (hw.1 out (by simp [Op.defs])).1 (hw.1 out (by simp [Op.defs])).2 hi
  | store n a bits => exact store_ok hi
  | storePop n a => exact storePop_ok hw.2 hi
  | test n a => exact test_ok hi
  | compare n a b status => exact compare_ok hi
  | copy a out => exact copy_ok (hw.1 out (by simp [Op.defs])).1 (hw.1 out (by simp [Op.defs])).2 hi
  | perm l => exact perm_ok hw.2.1 hw.2.2.1 hw.1 hw.2.2.2 hi
  | keep args =>
    obtain ⟨c, st', h1, h2, h3⟩ := kill_ok (sem := sem) (emms := emms) (live := live) hi.nodup
      (fun r h => (hi.mem r).mpr (mem_transfer.mpr (.inl ⟨h, by simp [Op.defs]⟩))) hi.small
    exact ⟨c, st', h1, h2, h3⟩

theorem simOps_ok {emms : Bool} {live : List Nat} : ∀ (os : List Op) (st : St), WfAll live os → Inv (liveIn live os) st →
    ∃ c st', simOps emms live os st = some (c, st') ∧ Inv live st' ∧
      ∀ R : Nat → V, exec sem (st.map R) c = some ((runOps sem R os).1, st'.map (runOps sem R os).2) := by
  intro os
  induction os with
  | nil => intro st _ hi; exact ⟨[], st, rfl, hi, fun R => rfl⟩
  | cons o os ih =>
    intro st hw hi
    obtain ⟨c, st1, h1, h2, h3⟩ := simOp_ok (sem := sem) (emms := emms) (live := liveIn live os)
      (by simpa only [mem_liveIn] using hw.1) hi
    obtain ⟨c', st', h4, h5, h6⟩ := ih st1 hw.2 h2
    refine ⟨c ++ c', st', andThen_some h1 h4, h5, fun R => ?_⟩
    exact exec_append (h3 R) (h6 (o.step sem R).2)

theorem simBlock_ok {emms : Bool} {B : Block} {st : St} (hw : WfAll B.live B.ops) (hn : st.Nodup)
    (hl : ∀ r ∈ liveIn B.live B.ops, r ∈ st) (hs : ∀ r ∈ st, r < 8) :
    ∃ c st', simBlock emms B st = some (c, st') ∧ Inv B.live st' ∧
      ∀ R : Nat → V, exec sem (st.map R) c = some ((runOps sem R B.ops).1, st'.map (runOps sem R B.ops).2) := by
  obtain ⟨c, st1, h1, h2, h3⟩ := kill_ok (sem := sem) (emms := emms) hn hl hs
  obtain ⟨c', st', h4, h5, h6⟩ := simOps_ok (sem := sem) (emms := emms) B.ops st1 hw h2
  refine ⟨c ++ c', st', andThen_some h1 h4, h5, fun R => ?_⟩
  have := exec_append (h3 R) (h6 R)
  simpa using this

end Verif.Lemmas.X87
