import Verif.Model.Perm
/-!
# Lemmas: lowering of Perm nodes
-/
namespace Verif.Model.Perm
open Verif.Spec.Perm

theorem runAll_append (R : Nat → Nat) (a b : List Instr) : runAll R (a ++ b) = runAll (runAll R a) b := by
  induction a generalizing R with
  | nil => rfl
  | cons i is ih => exact ih _

/-- contents of registers at this point -/
def State.cur (s : State) (R : Nat → Nat) : Nat → Nat := runAll R s.code

theorem cur_emit (s : State) (R : Nat → Nat) (i : Instr) : (s.emit i).cur R = i.run (s.cur R) := by
  unfold State.cur State.emit
  rw [runAll_append]
  rfl

theorem cur_setMap (s : State) (R : Nat → Nat) (k : Nat) (v : Option Nat) : (s.setMap k v).cur R = s.cur R := rfl
theorem cur_setIn (s : State) (R : Nat → Nat) (k : Nat) (v : Bool) : (s.setIn k v).cur R = s.cur R := rfl

/-! ## Counting -/

def cnt (n : Nat) (p : Nat → Bool) : Nat := (List.range n).countP p

theorem cnt_le (n : Nat) {p q : Nat → Bool} (h : ∀ x, p x = true → q x = true) : cnt n p ≤ cnt n q := List.countP_mono_left fun x _ hx => h x hx

theorem cnt_lt {n : Nat} {p q : Nat → Bool} (h : ∀ x, p x = true → q x = true) {y : Nat} (hy : y < n) (hq : q y = true) (hp : p y = false) : cnt n p < cnt n q := by
  unfold cnt
  have hy' : y ∈ List.range n := List.mem_range.2 hy
  generalize List.range n = l at hy'
  induction l with
  | nil => cases hy'
  | cons x l ih =>
    rw [List.countP_cons, List.countP_cons]
    have hle : l.countP p ≤ l.countP q := List.countP_mono_left fun x _ hx => h x hx
    rcases List.mem_cons.1 hy' with rfl | hy'
    · rw [hq, hp]
      simp
      omega
    · have := ih hy'
      by_cases hx : p x = true
      · rw [hx, h x hx]; omega
      · simp only [hx]
        simp
        omega

theorem cnt_bound (n : Nat) (p : Nat → Bool) : cnt n p ≤ n := by
  have := List.countP_le_length (p := p) (l := List.range n)
  rw [List.length_range] at this
  exact this

theorem length_le_of_subset : ∀ {l l' : List Nat}, l.Nodup → (∀ x ∈ l, x ∈ l') → l.length ≤ l'.length := by
  intro l
  induction l with
  | nil => intro l' _ _; exact Nat.zero_le _
  | cons x l ih =>
    intro l' hnd hs
    rw [List.nodup_cons] at hnd
    have hx := hs x (List.mem_cons_self ..)
    have := ih (l' := l'.erase x) hnd.2 fun y hy => (List.mem_erase_of_ne (by rintro rfl; exact hnd.1 hy)).2 (hs y (List.mem_cons_of_mem _ hy))
    rw [List.length_erase_of_mem hx] at this
    have hpos : 0 < l'.length := List.length_pos_of_mem hx
    simp only [List.length_cons]
    omega

theorem subset_of_length {l l' : List Nat} (hnd : l.Nodup) (hs : ∀ x ∈ l, x ∈ l') (hlen : l'.length ≤ l.length) : ∀ x ∈ l', x ∈ l := by
  intro x hx
  refine Classical.byContradiction fun hn => ?_
  have := length_le_of_subset (l := x :: l) (l' := l') (List.nodup_cons.2 ⟨hn, hnd⟩) fun y hy => by
    rcases List.mem_cons.1 hy with rfl | hy
    · exact hx
    · exact hs y hy
  simp only [List.length_cons] at this
  omega

/-! ## Moves -/

section
variable {moves : List (Nat × Nat)} {n : Nat}

theorem dst_inj (h : Ok moves n) {m m' : Nat × Nat} (hm : m ∈ moves) (hm' : m' ∈ moves) (he : m.2 = m'.2) : m = m' := by
  obtain ⟨i, hi, rfl⟩ := List.mem_iff_getElem.1 hm
  obtain ⟨j, hj, rfl⟩ := List.mem_iff_getElem.1 hm'
  have hnd := h.dstNodup
  rw [List.Nodup, List.pairwise_iff_getElem] at hnd
  rcases Nat.lt_trichotomy i j with hh | rfl | hh
  · exact absurd (by rw [List.getElem_map, List.getElem_map]; exact he) (hnd i j (by simpa using hi) (by simpa using hj) hh)
  · rfl
  · exact absurd (by rw [List.getElem_map, List.getElem_map]; exact he.symm) (hnd j i (by simpa using hj) (by simpa using hi) hh)

/-- a register that is written is read at most once -/
theorem src_inj (h : Ok moves n) {m m' t : Nat × Nat} (hm : m ∈ moves) (hm' : m' ∈ moves) (he : m.1 = m'.1) (ht : t ∈ moves) (hw : t.2 = m.1) : m = m' := by
  obtain ⟨i, hi, rfl⟩ := List.mem_iff_getElem.1 hm
  obtain ⟨j, hj, rfl⟩ := List.mem_iff_getElem.1 hm'
  have hnd := h.srcOnce
  rw [List.pairwise_iff_getElem] at hnd
  rcases Nat.lt_trichotomy i j with hh | rfl | hh
  · exact absurd hw (hnd i j hi hj hh he t ht)
  · rfl
  · exact absurd (hw.trans he) (hnd j i hj hi hh he.symm t ht)

/-! ## Chains -/

/-- what holds while chains are resolved -/
structure J (moves : List (Nat × Nat)) (alloc : Nat → Bool) (s : State) (R : Nat → Nat) : Prop where
  pair : ∀ k i, s.oregmap k = some i → i ≠ k ∧ (i, k) ∈ moves
  pending : ∀ k i, s.oregmap k = some i → s.cur R i = R i
  moved : ∀ m ∈ moves, s.oregmap m.2 = some m.1 ∨ (s.oregmap m.2 = none ∧ s.cur R m.2 = R m.1)
  other : ∀ r, (∀ m ∈ moves, m.2 ≠ r) → s.cur R r = R r
  unread : ∀ r, s.inregs r = false → s.oregmap r ≠ none → ∀ k, s.oregmap k ≠ some r
  read : ∀ r, s.inregs r = true → ∃ k, s.oregmap k = some r
  done : ∀ m ∈ moves, s.oregmap m.2 = none → ∀ k, s.oregmap k ≠ some m.2
  free : ∀ x, s.free = some x → (∀ m ∈ moves, m.2 ≠ x) ∧ (∃ m ∈ moves, m.1 = x) ∧ alloc x = true

theorem follow_ok (h : Ok moves n) {alloc : Nat → Bool} {R : Nat → Nat} : ∀ fuel k s, J moves alloc s R → (s.oregmap k ≠ none → ∀ k', s.oregmap k' ≠ some k) →
    cnt n (fun r => (s.oregmap r).isSome) < fuel →
    ∃ s', follow alloc fuel k s = some s' ∧ J moves alloc s' R ∧ s'.oregmap k = none ∧ (∀ r, s.oregmap r = none → s'.oregmap r = none) ∧
      (∀ r, s'.inregs r = false → s.inregs r = false ∨ s'.oregmap r = none) := by
  intro fuel
  induction fuel with
  | zero => intro k s _ _ hf; omega
  | succ fuel ih =>
    intro k s hj hnr hf
    unfold follow
    cases hk : s.oregmap k with
    | none => exact ⟨s, rfl, hj, hk, fun r hr => hr, fun r hr => Or.inl hr⟩
    | some i =>
      simp only
      have hnr' := hnr (by rw [hk]; exact fun e => (nomatch e))
      obtain ⟨hik, hmk⟩ := hj.pair k i hk
      have hkn : k < n := h.dst _ hmk
      -- the new state without the change of `free`
      have key : ∀ fr : Option Nat, (∀ x, fr = some x → (∀ m ∈ moves, m.2 ≠ x) ∧ (∃ m ∈ moves, m.1 = x) ∧ alloc x = true) →
          ∀ s1 : State, s1 = { ((s.setMap k none).emit (.copy i k)).setIn i false with free := fr } → J moves alloc s1 R ∧
            (s1.oregmap i ≠ none → ∀ k', s1.oregmap k' ≠ some i) ∧ cnt n (fun r => (s1.oregmap r).isSome) < fuel ∧
            (∀ r, s1.oregmap r = if r = k then none else s.oregmap r) ∧ ∀ r, s1.inregs r = if r = i then false else s.inregs r := by
        rintro fr hfr s1 rfl
        have hmap : ∀ r, ({ ((s.setMap k none).emit (.copy i k)).setIn i false with free := fr } : State).oregmap r = if r = k then none else s.oregmap r := fun r => rfl
        have hin : ∀ r, ({ ((s.setMap k none).emit (.copy i k)).setIn i false with free := fr } : State).inregs r = if r = i then false else s.inregs r := fun r => rfl
        have hcur : ∀ r, ({ ((s.setMap k none).emit (.copy i k)).setIn i false with free := fr } : State).cur R r = if r = k then s.cur R i else s.cur R r := by
          intro r
          show (((s.setMap k none).emit (.copy i k)).cur R) r = _
          rw [cur_emit, cur_setMap]
          rfl
        have hfree : ({ ((s.setMap k none).emit (.copy i k)).setIn i false with free := fr } : State).free = fr := rfl
        generalize ({ ((s.setMap k none).emit (.copy i k)).setIn i false with free := fr } : State) = s1 at hmap hin hcur hfree
        have hsub : ∀ r x, s1.oregmap r = some x → r ≠ k ∧ s.oregmap r = some x := by
          intro r x hr
          rw [hmap] at hr
          by_cases e : r = k
          · rw [if_pos e] at hr; cases hr
          · rw [if_neg e] at hr; exact ⟨e, hr⟩
        have hnri : s1.oregmap i ≠ none → ∀ k', s1.oregmap k' ≠ some i := by
          intro hi k' hk'
          obtain ⟨e1, e2⟩ := hsub k' i hk'
          cases hi' : s1.oregmap i with
          | none => exact hi hi'
          | some j =>
            obtain ⟨-, e4⟩ := hsub i j hi'
            have := src_inj h hmk (hj.pair _ _ e2).2 rfl (hj.pair _ _ e4).2 rfl
            exact e1 (congrArg Prod.snd this).symm
        refine ⟨⟨?_, ?_, ?_, ?_, ?_, ?_, ?_, ?_⟩, hnri, ?_, hmap, hin⟩
        · intro k' i' hk'
          exact hj.pair k' i' (hsub k' i' hk').2
        · intro k' i' hk'
          have h2 := (hsub k' i' hk').2
          rw [hcur, if_neg (by rintro rfl; exact hnr' k' h2)]
          exact hj.pending k' i' h2
        · intro m hm
          by_cases e : m.2 = k
          · have : m = (i, k) := dst_inj h hm hmk e
            subst this
            right
            rw [hmap, hcur, if_pos rfl, if_pos rfl]
            exact ⟨rfl, hj.pending k i hk⟩
          · rw [hmap, hcur, if_neg e, if_neg e]
            exact hj.moved m hm
        · intro r hr
          rw [hcur, if_neg fun e => hr _ hmk e.symm]
          exact hj.other r hr
        · intro r hr hro k' hk'
          by_cases e : r = i
          · subst e; exact hnri hro k' hk'
          · rw [hin, if_neg e] at hr
            refine hj.unread r hr ?_ k' (hsub k' r hk').2
            rw [hmap] at hro
            split at hro
            · exact absurd rfl hro
            · exact hro
        · intro r hr
          rw [hin] at hr
          by_cases e : r = i
          · rw [if_pos e] at hr; cases hr
          · rw [if_neg e] at hr
            obtain ⟨k', hk'⟩ := hj.read r hr
            refine ⟨k', ?_⟩
            rw [hmap, if_neg ?_]
            · exact hk'
            · rintro rfl
              rw [hk] at hk'
              exact e (Option.some.inj hk').symm
        · intro m hm hmn k' hk'
          have h2 := (hsub k' _ hk').2
          by_cases e : m.2 = k
          · rw [e] at h2
            exact hnr' k' h2
          · rw [hmap, if_neg e] at hmn
            exact hj.done m hm hmn k' h2
        · intro x hx
          exact hfr x (hfree ▸ hx)
        · have : cnt n (fun r => (s1.oregmap r).isSome) < cnt n (fun r => (s.oregmap r).isSome) := by
            refine cnt_lt (fun x hx => ?_) hkn (y := k) (by simp [hk]) (by simp [hmap])
            rw [hmap] at hx
            split at hx
            · cases hx
            · exact hx
          omega
      have fin : ∀ fr : Option Nat, (∀ x, fr = some x → (∀ m ∈ moves, m.2 ≠ x) ∧ (∃ m ∈ moves, m.1 = x) ∧ alloc x = true) →
          ∃ s', follow alloc fuel i { ((s.setMap k none).emit (.copy i k)).setIn i false with free := fr } = some s' ∧ J moves alloc s' R ∧ s'.oregmap k = none ∧
            (∀ r, s.oregmap r = none → s'.oregmap r = none) ∧ (∀ r, s'.inregs r = false → s.inregs r = false ∨ s'.oregmap r = none) := by
        intro fr hfr
        obtain ⟨e1, e2, e3, e4, e5⟩ := key fr hfr _ rfl
        obtain ⟨s', f1, f2, f3, f4, f5⟩ := ih i _ e1 e2 e3
        refine ⟨s', f1, f2, f4 k (by rw [e4, if_pos rfl]), fun r hr => f4 r ?_, fun r hr => ?_⟩
        · rw [e4]
          split
          · rfl
          · exact hr
        · rcases f5 r hr with hh | hh
          · rw [e5] at hh
            by_cases e : r = i
            · subst e; exact Or.inr f3
            · rw [if_neg e] at hh; exact Or.inl hh
          · exact Or.inr hh
      by_cases hc : ((((s.setMap k none).emit (.copy i k)).oregmap i).isNone && ((s.setMap k none).emit (.copy i k)).free.isNone && alloc i) = true
      · rw [if_pos hc]
        simp only [Bool.and_eq_true, Option.isNone_iff_eq_none] at hc
        refine fin (some i) fun x hx => ?_
        obtain rfl := Option.some.inj hx
        refine ⟨fun m hm e => ?_, ⟨_, hmk, rfl⟩, hc.2⟩
        have hmap : s.oregmap i = none := by
          have h1 : (if i = k then none else s.oregmap i) = none := hc.1.1
          rwa [if_neg hik] at h1
        exact hj.done m hm (by rw [e]; exact hmap) k (by rw [e]; exact hk)
      · rw [if_neg hc]
        exact fin s.free hj.free

theorem chains_ok (h : Ok moves n) {alloc : Nat → Bool} {R : Nat → Nat} {fuel : Nat} (hf : n < fuel) : ∀ is s, J moves alloc s R →
    ∃ s', chains alloc fuel is s = some s' ∧ J moves alloc s' R ∧ (∀ r ∈ is, s'.inregs r = false → s'.oregmap r = none) ∧ (∀ r, s.oregmap r = none → s'.oregmap r = none) ∧
      (∀ r, s'.inregs r = false → s.inregs r = false ∨ s'.oregmap r = none) := by
  intro is
  induction is with
  | nil => intro s hj; exact ⟨s, rfl, hj, fun r hr => (nomatch hr), fun r hr => hr, fun r hr => Or.inl hr⟩
  | cons i is ih =>
    intro s hj
    unfold chains
    by_cases hi : s.inregs i = true
    · rw [if_pos hi]
      obtain ⟨s', f1, f2, f3, f4, f5⟩ := ih s hj
      refine ⟨s', f1, f2, fun r hr hrf => ?_, f4, f5⟩
      rcases List.mem_cons.1 hr with rfl | hr
      · rcases f5 r hrf with hh | hh
        · rw [hi] at hh; cases hh
        · exact hh
      · exact f3 r hr hrf
    · rw [if_neg hi]
      have hi' : s.inregs i = false := Bool.eq_false_iff.2 hi
      obtain ⟨s1, e1, e2, e3, e4, e5⟩ := follow_ok h fuel i s hj (hj.unread i hi') (Nat.lt_of_le_of_lt (cnt_bound ..) hf)
      rw [e1]
      simp only
      obtain ⟨s', f1, f2, f3, f4, f5⟩ := ih s1 e2
      refine ⟨s', f1, f2, fun r hr hrf => ?_, fun r hr => f4 r (e4 r hr), fun r hr => ?_⟩
      · rcases List.mem_cons.1 hr with rfl | hr
        · exact f4 r e3
        · exact f3 r hr hrf
      · rcases f5 r hr with hh | hh
        · rcases e5 r hh with hh | hh
          · exact Or.inl hh
          · exact Or.inr (f4 r hh)
        · exact Or.inr hh

/-! ## The start -/

theorem collect_spec : ∀ (ms : List (Nat × Nat)) (s : State), (ms.map (·.2)).Nodup → (∀ m ∈ ms, s.oregmap m.2 = none) →
    (∀ k i, (collect ms s).oregmap k = some i ↔ s.oregmap k = some i ∨ (i ≠ k ∧ (i, k) ∈ ms)) ∧
    (∀ r, (collect ms s).inregs r = true ↔ s.inregs r = true ∨ ∃ k, r ≠ k ∧ (r, k) ∈ ms) ∧ (collect ms s).free = s.free ∧ (collect ms s).code = s.code := by
  intro ms
  induction ms with
  | nil => intro s _ _; exact ⟨fun k i => by simp [collect], fun r => by simp [collect], rfl, rfl⟩
  | cons m ms ih =>
    intro s hnd hs
    obtain ⟨i, o⟩ := m
    rw [List.map_cons, List.nodup_cons] at hnd
    unfold collect
    by_cases e : i = o
    · rw [if_pos e]
      obtain ⟨f1, f2, f3, f4⟩ := ih s hnd.2 fun m hm => hs m (List.mem_cons_of_mem _ hm)
      refine ⟨fun k i' => ?_, fun r => ?_, f3, f4⟩
      · rw [f1, List.mem_cons, Prod.mk.injEq]
        constructor
        · rintro (hh | ⟨h1, h2⟩)
          · exact Or.inl hh
          · exact Or.inr ⟨h1, Or.inr h2⟩
        · rintro (hh | ⟨h1, ⟨rfl, rfl⟩ | h2⟩)
          · exact Or.inl hh
          · exact absurd e h1
          · exact Or.inr ⟨h1, h2⟩
      · rw [f2]
        constructor
        · rintro (hh | ⟨k, h1, h2⟩)
          · exact Or.inl hh
          · exact Or.inr ⟨k, h1, List.mem_cons_of_mem _ h2⟩
        · rintro (hh | ⟨k, h1, h2⟩)
          · exact Or.inl hh
          · rcases List.mem_cons.1 h2 with h2 | h2
            · obtain ⟨rfl, rfl⟩ := Prod.mk.inj h2
              exact absurd e h1
            · exact Or.inr ⟨k, h1, h2⟩
    · rw [if_neg e]
      have hmap : ∀ r, ((s.setMap o (some i)).setIn i true).oregmap r = if r = o then some i else s.oregmap r := fun r => rfl
      have hin : ∀ r, ((s.setMap o (some i)).setIn i true).inregs r = if r = i then true else s.inregs r := fun r => rfl
      obtain ⟨f1, f2, f3, f4⟩ := ih ((s.setMap o (some i)).setIn i true) hnd.2 fun m hm => by
        rw [hmap, if_neg fun e => hnd.1 (List.mem_map.2 ⟨m, hm, e⟩)]
        exact hs m (List.mem_cons_of_mem _ hm)
      refine ⟨fun k i' => ?_, fun r => ?_, f3, f4⟩
      · rw [f1, hmap, List.mem_cons, Prod.mk.injEq]
        by_cases ek : k = o
        · subst ek
          rw [if_pos rfl, hs (i, k) (List.mem_cons_self ..)]
          constructor
          · rintro (hh | ⟨h1, h2⟩)
            · obtain rfl := Option.some.inj hh
              exact Or.inr ⟨e, Or.inl ⟨rfl, rfl⟩⟩
            · exact Or.inr ⟨h1, Or.inr h2⟩
          · rintro (hh | ⟨h1, ⟨rfl, -⟩ | h2⟩)
            · cases hh
            · exact Or.inl rfl
            · exact Or.inr ⟨h1, h2⟩
        · rw [if_neg ek]
          constructor
          · rintro (hh | ⟨h1, h2⟩)
            · exact Or.inl hh
            · exact Or.inr ⟨h1, Or.inr h2⟩
          · rintro (hh | ⟨h1, ⟨-, h3⟩ | h2⟩)
            · exact Or.inl hh
            · exact absurd h3 ek
            · exact Or.inr ⟨h1, h2⟩
      · rw [f2, hin]
        by_cases er : r = i
        · subst er
          rw [if_pos rfl]
          exact ⟨fun _ => Or.inr ⟨o, e, List.mem_cons_self ..⟩, fun _ => Or.inl rfl⟩
        · rw [if_neg er]
          constructor
          · rintro (hh | ⟨k, h1, h2⟩)
            · exact Or.inl hh
            · exact Or.inr ⟨k, h1, List.mem_cons_of_mem _ h2⟩
          · rintro (hh | ⟨k, h1, h2⟩)
            · exact Or.inl hh
            · rcases List.mem_cons.1 h2 with h2 | h2
              · exact absurd (Prod.mk.inj h2).1 er
              · exact Or.inr ⟨k, h1, h2⟩

theorem collect_ok (h : Ok moves n) {alloc : Nat → Bool} (R : Nat → Nat) : J moves alloc (collect moves ⟨fun _ => none, fun _ => false, none, []⟩) R := by
  obtain ⟨f1, f2, f3, f4⟩ := collect_spec moves ⟨fun _ => none, fun _ => false, none, []⟩ h.dstNodup fun m _ => rfl
  generalize collect moves ⟨fun _ => none, fun _ => false, none, []⟩ = s at *
  have hmap : ∀ k i, s.oregmap k = some i ↔ i ≠ k ∧ (i, k) ∈ moves := fun k i => by rw [f1]; simp
  have hin : ∀ r, s.inregs r = true ↔ ∃ k, r ≠ k ∧ (r, k) ∈ moves := fun r => by rw [f2]; simp
  have hcur : ∀ r, s.cur R r = R r := fun r => by unfold State.cur; rw [f4]; rfl
  have hread : ∀ r, s.inregs r = true ↔ ∃ k, s.oregmap k = some r := fun r => by
    rw [hin]
    exact ⟨fun ⟨k, h1, h2⟩ => ⟨k, (hmap k r).2 ⟨h1, h2⟩⟩, fun ⟨k, hk⟩ => ⟨k, (hmap k r).1 hk⟩⟩
  refine ⟨fun k i hk => (hmap k i).1 hk, fun k i _ => hcur i, fun m hm => ?_, fun r _ => hcur r, fun r hr _ k hk => ?_, fun r hr => (hread r).1 hr, fun m hm hmn k hk => ?_, ?_⟩
  · by_cases e : m.1 = m.2
    · right
      refine ⟨?_, by rw [hcur, e]⟩
      cases hk : s.oregmap m.2 with
      | none => rfl
      | some i =>
        obtain ⟨h1, h2⟩ := (hmap _ _).1 hk
        have := dst_inj h h2 hm rfl
        exact absurd ((congrArg Prod.fst this).trans e) h1
    · exact Or.inl ((hmap _ _).2 ⟨e, hm⟩)
  · rw [(hread r).2 ⟨k, hk⟩] at hr
    cases hr
  · obtain ⟨h1, h2⟩ := (hmap _ _).1 hk
    by_cases e : m.1 = m.2
    · have := src_inj h hm h2 e hm e.symm
      exact h1 ((congrArg Prod.snd this))
    · rw [(hmap _ _).2 ⟨e, hm⟩] at hmn
      cases hmn
  · intro x hx
    rw [f3] at hx
    cases hx

end

end Verif.Model.Perm
