import Verif.Lemmas.PermCycles
/-!
# Properties of the lowering of Perm nodes (C102)
-/
namespace Verif.Props.Perm
open Verif.Spec.Perm Verif.Model.Perm

/-- the contents that the registers shall get -/
def want (moves : List (Nat × Nat)) (R : Nat → Nat) (r : Nat) : Nat :=
  match moves.find? (·.2 == r) with
  | some m => R m.1
  | none => R r

theorem want_dst {moves : List (Nat × Nat)} {n : Nat} (h : Ok moves n) (R : Nat → Nat) {m : Nat × Nat} (hm : m ∈ moves) : want moves R m.2 = R m.1 := by
  unfold want
  cases hf : moves.find? (·.2 == m.2) with
  | none =>
    have := List.find?_eq_none.1 hf m hm
    simp at this
  | some m' =>
    have h1 := List.mem_of_find?_eq_some hf
    have h2 := List.find?_some hf
    simp only [beq_iff_eq] at h2
    simp only
    rw [dst_inj h h1 hm h2]

theorem want_other {moves : List (Nat × Nat)} (R : Nat → Nat) {r : Nat} (hr : ∀ m ∈ moves, m.2 ≠ r) : want moves R r = R r := by
  unfold want
  rw [List.find?_eq_none.2 fun m hm => by simpa using hr m hm]

/-- after the chains only cycles are left -/
theorem cycles_left {moves : List (Nat × Nat)} {n : Nat} (h : Ok moves n) {alloc : Nat → Bool} {R : Nat → Nat} {s : State} (hj : J moves alloc s R)
    (hk : ∀ r ∈ List.range n, s.inregs r = false → s.oregmap r = none) (scratch : Nat → Prop) : C n (want moves R) scratch s R := by
  -- registers that are still to be written
  have hout : ∀ r, s.oregmap r ≠ none → r < n := fun r hr => by
    cases hr' : s.oregmap r with
    | none => exact absurd hr' hr
    | some i => exact h.dst _ (hj.pair r i hr').2
  have hin : ∀ r, s.oregmap r ≠ none → s.inregs r = true := fun r hr => by
    refine Classical.byContradiction fun e => hr (hk r (List.mem_range.2 (hout r hr)) (Bool.eq_false_iff.2 e))
  -- all of them are read, so there are no other sources
  have hcl : ∀ k i, s.oregmap k = some i → s.oregmap i ≠ none := by
    intro k i hki
    have hmem := subset_of_length (l := (List.range n).filter fun r => (s.oregmap r).isSome) (l' := ((List.range n).filter fun r => (s.oregmap r).isSome).map fun r => (s.oregmap r).getD 0)
      (List.nodup_range.filter _) (fun x hx => by
        rw [List.mem_filter] at hx
        have hx' : s.oregmap x ≠ none := by intro e; rw [e] at hx; exact absurd hx.2 (by decide)
        obtain ⟨k', hk'⟩ := hj.read x (hin x hx')
        refine List.mem_map.2 ⟨k', List.mem_filter.2 ⟨List.mem_range.2 (hout k' (by rw [hk']; exact fun e => (nomatch e))), by rw [hk']; rfl⟩, by rw [hk']; rfl⟩)
      (by rw [List.length_map]; exact Nat.le_refl _) i
      (List.mem_map.2 ⟨k, List.mem_filter.2 ⟨List.mem_range.2 (hout k (by rw [hki]; exact fun e => (nomatch e))), by rw [hki]; rfl⟩, by rw [hki]; rfl⟩)
    rw [List.mem_filter] at hmem
    intro e
    rw [e] at hmem
    exact absurd hmem.2 (by decide)
  have hio : ∀ r, s.inregs r = true → s.oregmap r ≠ none := fun r hr => by
    obtain ⟨k, hk'⟩ := hj.read r hr
    exact hcl k r hk'
  refine ⟨fun r hr => ?_, fun r r' i hr hr' hi hi' => ?_, fun r i hr hi => ?_, fun r hr _ => ?_⟩
  · cases hr' : s.oregmap r with
    | none => exact absurd hr' (hio r hr)
    | some i => exact ⟨hout r (hio r hr), i, rfl, (hj.pair r i hr').1, hin i (hcl r i hr')⟩
  · cases hj' : s.oregmap i with
    | none => exact absurd hj' (hcl r i hi)
    | some j =>
      have := src_inj h (hj.pair r i hi).2 (hj.pair r' i hi').2 rfl (hj.pair i j hj').2 rfl
      exact congrArg Prod.snd this
  · rw [hj.pending r i hi]
    exact (want_dst h R (hj.pair r i hi).2).symm
  · have hrn : s.oregmap r = none := by
      refine Classical.byContradiction fun e => ?_
      rw [hin r e] at hr
      cases hr
    by_cases hd : ∃ m ∈ moves, m.2 = r
    · obtain ⟨m, hm, rfl⟩ := hd
      rcases hj.moved m hm with e | e
      · rw [hrn] at e; cases e
      · rw [e.2, want_dst h R hm]
    · have hd' : ∀ m ∈ moves, m.2 ≠ r := fun m hm e => hd ⟨m, hm, e⟩
      rw [hj.other r hd', want_other R hd']

/-- a register that may be overwritten: a source that is not written and may be allocated, or the one that was found to be free -/
def Scratch (moves : List (Nat × Nat)) (alloc : Nat → Bool) (found : Option Nat) (r : Nat) : Prop :=
  (∀ m ∈ moves, m.2 ≠ r) ∧ (((∃ m ∈ moves, m.1 = r) ∧ alloc r = true) ∨ found = some r)

theorem two_mem {l : List (Nat × Nat)} (hl : l.length ≤ 2) {a b : Nat × Nat} (ha : a ∈ l) (hb : b ∈ l) (hne : a ≠ b) : ∃ m m', l = [m, m'] := by
  rcases l with _ | ⟨m, _ | ⟨m', _ | ⟨m'', l⟩⟩⟩
  · cases ha
  · rw [List.mem_singleton] at ha hb
    exact absurd (ha.trans hb.symm) hne
  · exact ⟨m, m', rfl⟩
  · simp at hl

theorem lower_run {moves : List (Nat × Nat)} {n : Nat} (h : Ok moves n) {alloc : Nat → Bool} {found : Option Nat} (hfound : ∀ f, found = some f → ∀ m ∈ moves, m.1 ≠ f ∧ m.2 ≠ f)
    {useCopies : Bool} {arity : Nat} (har : moves.length ≤ arity) (R : Nat → Nat) :
    ∃ code, lower useCopies n alloc found arity moves = some code ∧ (∀ m ∈ moves, runAll R code m.2 = R m.1) ∧
      ∀ r, (∀ m ∈ moves, m.2 ≠ r) → ¬ Scratch moves alloc found r → runAll R code r = R r := by
  unfold lower
  obtain ⟨s, e1, hj, hk, -⟩ := chains_ok h (Nat.lt_succ_self n) (List.range n) _ (collect_ok h (alloc := alloc) R)
  simp only
  rw [e1]
  simp only
  have fin : ∀ (s' : State) (scratch : Nat → Prop), (∀ r, scratch r → Scratch moves alloc found r) → (∀ r, ¬ scratch r → s'.cur R r = want moves R r) →
      (∀ m ∈ moves, runAll R s'.code m.2 = R m.1) ∧ ∀ r, (∀ m ∈ moves, m.2 ≠ r) → ¬ Scratch moves alloc found r → runAll R s'.code r = R r := by
    intro s' scratch hs hw
    refine ⟨fun m hm => ?_, fun r hr hsc => ?_⟩
    · exact (hw m.2 fun e => (hs _ e).1 m hm rfl).trans (want_dst h R hm)
    · exact (hw r fun e => hsc (hs r e)).trans (want_other R hr)
  by_cases c1 : ((List.range n).all fun r => !s.inregs r) = true
  · rw [if_pos c1]
    have hc := cycles_left h hj hk (fun _ => False)
    refine ⟨s.code, rfl, fin s (fun _ => False) (fun r e => e.elim) fun r _ => hc.other r ?_ fun e => e⟩
    refine Bool.eq_false_iff.2 fun e => ?_
    have := (List.all_eq_true.1 c1) r (List.mem_range.2 (hc.next r e).1)
    rw [e] at this
    cases this
  rw [if_neg c1]
  have hcnt : ∀ p, (n - 0) + cnt n p < 2 * n + 1 := fun p => by have := cnt_bound n p; omega
  -- exchanges
  have swaps : ∃ code, (if arity = 2 then (match moves with
      | [m, m'] => some (s.code ++ [.swap m.1 m'.1])
      | _ => none) else (cyclesSwap n (2 * n + 1) 0 s).map (·.code)) = some code ∧ (∀ m ∈ moves, runAll R code m.2 = R m.1) ∧
      ∀ r, (∀ m ∈ moves, m.2 ≠ r) → ¬ Scratch moves alloc found r → runAll R code r = R r := by
    have hc := cycles_left h hj hk (fun _ => False)
    by_cases c2 : arity = 2
    · rw [if_pos c2]
      -- there is a cycle, so both moves are in it
      have hex : ∃ r, s.inregs r = true := by
        refine Classical.byContradiction fun e => c1 (List.all_eq_true.2 fun r _ => ?_)
        cases hr : s.inregs r with
        | false => rfl
        | true => exact absurd ⟨r, hr⟩ e
      obtain ⟨r, hr⟩ := hex
      obtain ⟨-, i, hi, hne, hin⟩ := hc.next r hr
      obtain ⟨-, j, hij, hne', hjn⟩ := hc.next i hin
      have m1 := (hj.pair r i hi).2
      have m2 := (hj.pair i j hij).2
      obtain ⟨-, l, hl, hnel, -⟩ := hc.next j hjn
      have m3 := (hj.pair j l hl).2
      have key : ∀ m m' : Nat × Nat, moves = [m, m'] → (∀ x ∈ moves, runAll R (s.code ++ [.swap m.1 m'.1]) x.2 = R x.1) ∧
          ∀ x, (∀ t ∈ moves, t.2 ≠ x) → runAll R (s.code ++ [.swap m.1 m'.1]) x = R x := by
        intro m m' hmm
        have hmem : ∀ x : Nat × Nat, x ∈ moves → x = m ∨ x = m' := fun x hx => by rw [hmm] at hx; simpa using hx
        have hjr : j = r := by
          rcases hmem _ m1 with e1 | e1
          · rcases hmem _ m2 with e2 | e2
            · exact absurd (congrArg Prod.snd (e2.trans e1.symm)) hne
            · rcases hmem _ m3 with e3 | e3
              · exact congrArg Prod.snd (e3.trans e1.symm)
              · exact absurd (congrArg Prod.snd (e3.trans e2.symm)) hne'
          · rcases hmem _ m2 with e2 | e2
            · rcases hmem _ m3 with e3 | e3
              · exact absurd (congrArg Prod.snd (e3.trans e2.symm)) hne'
              · exact congrArg Prod.snd (e3.trans e1.symm)
            · exact absurd (congrArg Prod.snd (e2.trans e1.symm)) hne
        subst hjr
        have hcur : ∀ x, runAll R (s.code ++ [.swap m.1 m'.1]) x = if x = m.1 then s.cur R m'.1 else if x = m'.1 then s.cur R m.1 else s.cur R x := by
          intro x
          rw [runAll_append]
          rfl
        have hci : s.cur R i = R i := hj.pending j i hi
        have hcj : s.cur R j = R j := hj.pending i j hij
        rcases hmem _ m1 with e1 | e1 <;> rcases hmem _ m2 with e2 | e2
        · exact absurd (congrArg Prod.snd (e2.trans e1.symm)) hne
        · subst e1; subst e2
          simp only at hcur
          refine ⟨fun x hx => ?_, fun x hx => ?_⟩
          · rcases hmem x hx with rfl | rfl
            · rw [hcur, if_neg hne', if_pos rfl, hci]
            · rw [hcur, if_pos rfl, hcj]
          · rw [hcur, if_neg (Ne.symm (hx _ m2)), if_neg (Ne.symm (hx _ m1))]
            exact hj.other x hx
        · subst e1; subst e2
          simp only at hcur
          refine ⟨fun x hx => ?_, fun x hx => ?_⟩
          · rcases hmem x hx with rfl | rfl
            · rw [hcur, if_neg hne, if_pos rfl, hcj]
            · rw [hcur, if_pos rfl, hci]
          · rw [hcur, if_neg (Ne.symm (hx _ m1)), if_neg (Ne.symm (hx _ m2))]
            exact hj.other x hx
        · exact absurd (congrArg Prod.snd (e2.trans e1.symm)) hne
      have hne2 : ((i, r) : Nat × Nat) ≠ (j, i) := fun e => hne (congrArg Prod.snd e).symm
      obtain ⟨m, m', hmm⟩ := two_mem (c2 ▸ har) m1 m2 hne2
      obtain ⟨k1, k2⟩ := key m m' hmm
      subst hmm
      exact ⟨_, rfl, k1, fun x hx _ => k2 x hx⟩
    · rw [if_neg c2]
      obtain ⟨s', f1, f2⟩ := cyclesSwap_ok (2 * n + 1) 0 s hc (Nat.zero_le _) (fun r hr => absurd hr (Nat.not_lt_zero _)) (hcnt _)
      rw [f1]
      exact ⟨s'.code, rfl, fin s' (fun _ => False) (fun r e => e.elim) fun r _ => f2 r⟩
  -- copies
  have copies : ∀ f, Scratch moves alloc found f → ∃ code, (cyclesCopy n f (2 * n + 1) 0 s).map (·.code) = some code ∧ (∀ m ∈ moves, runAll R code m.2 = R m.1) ∧
      ∀ r, (∀ m ∈ moves, m.2 ≠ r) → ¬ Scratch moves alloc found r → runAll R code r = R r := by
    intro f hf
    have hc := cycles_left h hj hk (· = f)
    have hff : s.inregs f = false := by
      refine Bool.eq_false_iff.2 fun e => ?_
      obtain ⟨-, i, hi, -⟩ := hc.next f e
      exact hf.1 _ (hj.pair f i hi).2 rfl
    obtain ⟨s', f1, f2⟩ := cyclesCopy_ok (2 * n + 1) 0 s hc hff (Nat.zero_le _) (fun r hr => absurd hr (Nat.not_lt_zero _)) (hcnt _)
    rw [f1]
    exact ⟨s'.code, rfl, fin s' (· = f) (fun r e => e ▸ hf) f2⟩
  cases useCopies with
  | false => exact swaps
  | true =>
    cases hsf : s.free with
    | some f =>
      simp only [Option.isNone_some, Bool.and_false]
      exact copies f ⟨(hj.free f hsf).1, Or.inl (hj.free f hsf).2⟩
    | none =>
      simp only [Option.isNone_none, Bool.and_true, if_true]
      cases found with
      | none => exact swaps
      | some f => exact copies f ⟨fun m hm => (hfound f rfl m hm).2, Or.inr rfl⟩

/-- **Lowering of Perm nodes**: the copies and exchanges put each value into its register.  No other register changes, except a source that is not written
(it dies at the Perm) and the register that was found to be free. -/
theorem lower_perm {moves : List (Nat × Nat)} {n : Nat} (h : Ok moves n) {alloc : Nat → Bool} {found : Option Nat} (hfound : ∀ f, found = some f → ∀ m ∈ moves, m.1 ≠ f ∧ m.2 ≠ f)
    {useCopies : Bool} {arity : Nat} (har : moves.length ≤ arity) :
    ∃ code, lower useCopies n alloc found arity moves = some code ∧ Implements code moves (Scratch moves alloc found) := by
  obtain ⟨code, h1, -⟩ := lower_run h hfound (useCopies := useCopies) har (alloc := alloc) (fun _ => 0)
  refine ⟨code, h1, fun R => ?_⟩
  obtain ⟨code', h1', h2⟩ := lower_run h hfound (useCopies := useCopies) har (alloc := alloc) R
  rw [h1] at h1'
  obtain rfl := Option.some.inj h1'
  exact h2

/-! ## Examples -/

/-- a cycle of five registers and a chain: `0 → 1 → 2 → 3 → 4 → 0` and `5 → 6 → 7`, and `8` stays -/
def five : List (Nat × Nat) := [(0, 1), (1, 2), (2, 3), (3, 4), (4, 0), (5, 6), (6, 7), (8, 8)]

theorem five_ok : Ok five 10 := ⟨by decide, by decide, by decide, by unfold five; decide⟩

/-- without copies: exchanges -/
example : lower false 10 (fun _ => true) none 8 five = some [.copy 6 7, .copy 5 6, .swap 4 3, .swap 2 1, .swap 3 1, .swap 1 0] := by decide +kernel

/-- with copies the first register of the chain is free -/
example : lower true 10 (fun _ => true) none 8 five =
    some [.copy 6 7, .copy 5 6, .copy 4 5, .copy 3 4, .copy 2 3, .copy 1 2, .copy 0 1, .copy 5 0] := by decide +kernel

/-- if it may not be used, another one is -/
example : lower true 10 (fun r => r != 5) (some 9) 8 five =
    some [.copy 6 7, .copy 5 6, .copy 4 9, .copy 3 4, .copy 2 3, .copy 1 2, .copy 0 1, .copy 9 0] := by decide +kernel

/-- a register that is read twice and not written -/
example : Ok [(3, 1), (3, 2), (1, 0)] 4 ∧ lower false 4 (fun _ => true) none 3 [(3, 1), (3, 2), (1, 0)] = some [.copy 1 0, .copy 3 1, .copy 3 2] :=
  ⟨⟨by decide, by decide, by decide, by decide⟩, by decide +kernel⟩

/-- **The condition on sources is needed**: a register that is read twice and also written is overwritten too early. -/
example : lower false 4 (fun _ => true) none 3 [(1, 0), (1, 2), (3, 1)] = some [.copy 1 0, .copy 3 1, .copy 1 2] ∧
    runAll (fun r => r + 10) [.copy 1 0, .copy 3 1, .copy 1 2] 2 = 13 := ⟨by decide +kernel, by decide +kernel⟩

end Verif.Props.Perm
