import Verif.Model.Deq
import Mathlib.Tactic.Linarith
/-!
# C34: the double ended queue behaves as a sequence of objects

The specification is a list of objects (byte strings); popping is defined when
the requested size is that of the object at that end.
-/
namespace Verif.Props
open Verif.Model

/-- operations with the bytes an unspecified fresh block would contain -/
inductive DeqOp
  | pushL (obj : List Nat)
  | pushR (obj : List Nat)
  | popL (size : Nat)
  | popR (size : Nat)

/-- specification: a list of objects -/
def deqSpec (C : Nat) (S : List (List Nat)) : DeqOp → Option (List (List Nat) × Option (List Nat))
  | .pushL o => if 0 < o.length ∧ o.length < C then some (o :: S, none) else none
  | .pushR o => if 0 < o.length ∧ o.length < C then some (S ++ [o], none) else none
  | .popL n => match S with
      | o :: rest => if o.length = n then some (rest, some o) else none
      | [] => none
  | .popR n => match S.reverse with
      | o :: rest => if o.length = n then some (rest.reverse, some o) else none
      | [] => none

/-- the model's step -/
def deqStep (C : Nat) (junk : List Nat) (bs : List DeqBlock) : DeqOp → Option (List DeqBlock × Option (List Nat))
  | .pushL o => (deqPushLeft C junk o bs).map fun b => (b, none)
  | .pushR o => (deqPushRight C junk o bs).map fun b => (b, none)
  | .popL n => (deqPopLeft n bs).map fun r => (r.1, some r.2)
  | .popR n => (deqPopRight n bs).map fun r => (r.1, some r.2)

/-- block `b` holds exactly the objects `g` -/
structure BlockRep (C : Nat) (b : DeqBlock) (g : List (List Nat)) : Prop where
  len : b.data.length = C
  lr : b.l ≤ b.r
  rC : b.r ≤ C
  content : (b.data.drop b.l).take (b.r - b.l) = g.flatten
  pos : ∀ o ∈ g, 0 < o.length

/-- the chain of blocks holds exactly the objects `S` -/
def DeqRep (C : Nat) (bs : List DeqBlock) (S : List (List Nat)) : Prop :=
  ∃ ps : List (DeqBlock × List (List Nat)), bs = ps.map Prod.fst ∧ S = ps.flatMap Prod.snd ∧ ps ≠ [] ∧
    (∀ p ∈ ps, BlockRep C p.1 p.2) ∧ (ps.length = 1 ∨ ∀ p ∈ ps, p.2 ≠ [])

theorem flatten_pos {g : List (List Nat)} (h : ∀ o ∈ g, 0 < o.length) (hg : g ≠ []) : 0 < g.flatten.length := by
  cases g with
  | nil => exact absurd rfl hg
  | cons o g => have := h o (List.mem_cons_self ..); simp only [List.flatten_cons, List.length_append]; omega

theorem BlockRep.size {C : Nat} {b : DeqBlock} {g : List (List Nat)} (h : BlockRep C b g) : b.r - b.l = g.flatten.length := by
  have := congrArg List.length h.content
  rw [List.length_take, List.length_drop] at this
  have := h.len; have := h.lr; have := h.rC
  omega

theorem BlockRep.empty {C : Nat} {d : List Nat} (h : d.length = C) {k : Nat} (hk : k ≤ C) : BlockRep C ⟨k, k, d⟩ [] :=
  ⟨h, le_refl _, hk, by simp, by simp⟩

theorem write_spec {d : List Nat} {ofs : Nat} {bs : List Nat} (h : ofs + bs.length ≤ d.length) :
    ∃ d', deqWrite d ofs bs = some d' ∧ d'.length = d.length ∧ d'.take ofs = d.take ofs ∧
      (d'.drop ofs).take bs.length = bs ∧ d'.drop (ofs + bs.length) = d.drop (ofs + bs.length) := by
  unfold deqWrite
  rw [if_pos h]
  have e1 : (d.take ofs).length = ofs := by rw [List.length_take]; omega
  refine ⟨_, rfl, ?_, ?_, ?_, ?_⟩
  · simp only [List.length_append, List.length_take, List.length_drop]; omega
  · rw [List.append_assoc, List.take_append_of_le_length (by omega), List.take_of_length_le (by omega)]
  · rw [List.append_assoc, List.drop_append_of_le_length (by omega), List.drop_of_length_le (by omega), List.nil_append,
      List.take_left']
    rfl
  · rw [List.append_assoc, ← List.append_assoc]
    rw [List.drop_left']
    simp only [List.length_append, e1]

/-- pushing an object into a block with room on the left -/
theorem block_push_left {C : Nat} {b : DeqBlock} {g : List (List Nat)} (h : BlockRep C b g) {o : List Nat} (ho : 0 < o.length)
    (hl : o.length ≤ b.l) : ∃ d, deqWrite b.data (b.l - o.length) o = some d ∧ BlockRep C ⟨b.l - o.length, b.r, d⟩ (o :: g) := by
  have h1 := h.len; have h2 := h.lr; have h3 := h.rC
  obtain ⟨d, e, e1, e2, e3, e4⟩ := write_spec (d := b.data) (ofs := b.l - o.length) (bs := o) (by omega)
  have eo : b.l - o.length + o.length = b.l := by omega
  rw [eo] at e4
  refine ⟨d, e, by simp only; omega, by simp only; omega, h3, ?_, ?_⟩
  · simp only
    have e5 : d.drop (b.l - o.length) = o ++ d.drop b.l := by
      conv_lhs => rw [← List.take_append_drop o.length (d.drop (b.l - o.length))]
      rw [e3, List.drop_drop, eo]
    rw [e5, e4, show b.r - (b.l - o.length) = o.length + (b.r - b.l) by omega, List.take_length_add_append, h.content]
    rfl
  · intro x hx
    rcases List.mem_cons.1 hx with hx | hx
    · rw [hx]; exact ho
    · exact h.pos x hx

/-- pushing an object into a block with room on the right -/
theorem block_push_right {C : Nat} {b : DeqBlock} {g : List (List Nat)} (h : BlockRep C b g) {o : List Nat} (ho : 0 < o.length)
    (hl : b.r + o.length ≤ C) : ∃ d, deqWrite b.data b.r o = some d ∧ BlockRep C ⟨b.l, b.r + o.length, d⟩ (g ++ [o]) := by
  have h1 := h.len; have h2 := h.lr; have h3 := h.rC
  obtain ⟨d, e, e1, e2, e3, e4⟩ := write_spec (d := b.data) (ofs := b.r) (bs := o) (by omega)
  refine ⟨d, e, by simp only; omega, by simp only; omega, hl, ?_, ?_⟩
  · simp only
    have e5 : (d.drop b.l).take (b.r - b.l) = g.flatten := by
      rw [← h.content, ← List.drop_take, ← List.drop_take, e2]
    have e6 : (d.drop b.l).take (b.r + o.length - b.l) = (d.drop b.l).take (b.r - b.l) ++ (d.drop b.r).take o.length := by
      rw [show b.r + o.length - b.l = (b.r - b.l) + o.length by omega, List.take_add, List.drop_drop,
        show b.l + (b.r - b.l) = b.r by omega]
    rw [e6, e5, e3]
    simp
  · intro x hx
    rcases List.mem_append.1 hx with hx | hx
    · exact h.pos x hx
    · rw [List.mem_singleton] at hx; rw [hx]; exact ho

theorem deq_push_left {C : Nat} {junk : List Nat} (hj : junk.length = C) {bs : List DeqBlock} {S : List (List Nat)}
    (h : DeqRep C bs S) {o : List Nat} (ho : 0 < o.length) (hoC : o.length < C) :
    ∃ bs', deqPushLeft C junk o bs = some bs' ∧ DeqRep C bs' (o :: S) := by
  obtain ⟨ps, rfl, rfl, hne, hall, hcard⟩ := h
  match ps, hne with
  | (b, g) :: ps, _ =>
    have hb : BlockRep C b g := hall (b, g) (List.mem_cons_self ..)
    have hrest : ∀ p ∈ ps, BlockRep C p.1 p.2 := fun p hp => hall p (List.mem_cons_of_mem _ hp)
    -- adding to a head block with room
    have fin : ∀ (e : DeqBlock) (ge : List (List Nat)) (qs : List (DeqBlock × List (List Nat))), BlockRep C e ge →
        (∀ p ∈ qs, BlockRep C p.1 p.2) → (qs = [] ∨ ∀ p ∈ qs, p.2 ≠ []) → o.length ≤ e.l →
        ge ++ qs.flatMap Prod.snd = g ++ ps.flatMap Prod.snd →
        ∃ bs', (deqWrite e.data (e.l - o.length) o).map (fun d => (⟨e.l - o.length, e.r, d⟩ :: qs.map Prod.fst : List DeqBlock)) = some bs' ∧
          DeqRep C bs' (o :: (g ++ ps.flatMap Prod.snd)) := by
      intro e ge qs he hqs hq hle hS
      obtain ⟨d, e1, e2⟩ := block_push_left he ho hle
      refine ⟨_, by rw [e1]; rfl, (⟨e.l - o.length, e.r, d⟩, o :: ge) :: qs, rfl, ?_, by simp, ?_, ?_⟩
      · simp only [List.flatMap_cons, List.cons_append, hS]
      · intro p hp
        rcases List.mem_cons.1 hp with hp | hp
        · rw [hp]; exact e2
        · exact hqs p hp
      · right
        intro p hp
        rcases List.mem_cons.1 hp with hp | hp
        · rw [hp]; simp
        · rcases hq with hq | hq
          · rw [hq] at hp; simp at hp
          · exact hq p hp
    have hq : ps = [] ∨ ∀ p ∈ ps, p.2 ≠ [] := by
      rcases hcard with h | h
      · left; simpa using h
      · right; exact fun p hp => h p (List.mem_cons_of_mem _ hp)
    show ∃ bs', deqPushLeft C junk o (b :: ps.map Prod.fst) = some bs' ∧ DeqRep C bs' (o :: (g ++ ps.flatMap Prod.snd))
    rw [deqPushLeft]
    rw [if_pos hoC]
    by_cases hlt : b.l < o.length
    · simp only [hlt, if_true]
      unfold deqAppendLeft
      by_cases hemp : (List.map Prod.fst ps).isEmpty && b.r == b.l
      · simp only [hemp, if_true, show ¬ (C < o.length) by omega, if_false]
        simp only [Bool.and_eq_true, List.isEmpty_iff, List.map_eq_nil_iff, beq_iff_eq] at hemp
        have hg : g = [] := by
          by_contra hg
          have := flatten_pos hb.pos hg
          have := hb.size
          omega
        exact fin ⟨C, C, b.data⟩ [] ps (BlockRep.empty hb.len (le_refl _)) hrest hq (by simp only; omega) (by rw [hg])
      · have hemp' : ((List.map Prod.fst ps).isEmpty && b.r == b.l) = false := by simpa using hemp
        simp only [hemp', Bool.false_eq_true, if_false, show ¬ (C < o.length) by omega]
        refine fin ⟨C, C, junk⟩ [] ((b, g) :: ps) (BlockRep.empty hj (le_refl _)) hall ?_ (by simp only; omega) (by simp)
        right
        rcases hcard with hc | hc
        · have hps : ps = [] := by simpa using hc
          intro p hp
          rw [hps, List.mem_singleton] at hp
          rw [hp]
          intro hg
          simp only at hg
          apply hemp
          have hsz := hb.size
          have := hb.lr
          rw [hg] at hsz
          simp only [List.flatten_nil, List.length_nil] at hsz
          rw [hps]
          simp; omega
        · exact hc
    · simp only [hlt, if_false]
      exact fin b g ps hb hrest hq (by omega) rfl

theorem deqRep_reverse_push {C : Nat} {bs : List DeqBlock} {S : List (List Nat)} (h : DeqRep C bs S) :
    ∃ ps : List (DeqBlock × List (List Nat)), bs.reverse = ps.map Prod.fst ∧ S = ps.reverse.flatMap Prod.snd ∧ ps ≠ [] ∧
    (∀ p ∈ ps, BlockRep C p.1 p.2) ∧ (ps.length = 1 ∨ ∀ p ∈ ps, p.2 ≠ []) := by
  obtain ⟨ps, h1, h2, h3, h4, h5⟩ := h
  refine ⟨ps.reverse, by rw [h1, List.map_reverse], by rw [List.reverse_reverse]; exact h2, by simpa using h3, ?_, ?_⟩
  · intro p hp; exact h4 p (by simpa using hp)
  · rcases h5 with h | h
    · left; simpa using h
    · right; intro p hp; exact h p (by simpa using hp)

theorem deqRep_of_reverse {C : Nat} {rs : List DeqBlock} {S : List (List Nat)} (ps : List (DeqBlock × List (List Nat)))
    (h1 : rs = ps.map Prod.fst) (h2 : S = ps.reverse.flatMap Prod.snd) (h3 : ps ≠ [])
    (h4 : ∀ p ∈ ps, BlockRep C p.1 p.2) (h5 : ps.length = 1 ∨ ∀ p ∈ ps, p.2 ≠ []) : DeqRep C rs.reverse S := by
  refine ⟨ps.reverse, by rw [h1, List.map_reverse], h2, by simpa using h3, ?_, ?_⟩
  · intro p hp; exact h4 p (by simpa using hp)
  · rcases h5 with h | h
    · left; simpa using h
    · right; intro p hp; exact h p (by simpa using hp)

theorem deq_push_right {C : Nat} {junk : List Nat} (hj : junk.length = C) {bs : List DeqBlock} {S : List (List Nat)}
    (h : DeqRep C bs S) {o : List Nat} (ho : 0 < o.length) (hoC : o.length < C) :
    ∃ bs', deqPushRight C junk o bs = some bs' ∧ DeqRep C bs' (S ++ [o]) := by
  obtain ⟨ps, hbs, rfl, hne, hall, hcard⟩ := deqRep_reverse_push h
  unfold deqPushRight
  rw [hbs]
  match ps, hne with
  | (b, g) :: ps, _ =>
    have hb : BlockRep C b g := hall (b, g) (List.mem_cons_self ..)
    have hrest : ∀ p ∈ ps, BlockRep C p.1 p.2 := fun p hp => hall p (List.mem_cons_of_mem _ hp)
    have fin : ∀ (e : DeqBlock) (ge : List (List Nat)) (qs : List (DeqBlock × List (List Nat))), BlockRep C e ge →
        (∀ p ∈ qs, BlockRep C p.1 p.2) → (qs = [] ∨ ∀ p ∈ qs, p.2 ≠ []) → e.r + o.length ≤ C →
        qs.reverse.flatMap Prod.snd ++ ge = ((b, g) :: ps).reverse.flatMap Prod.snd →
        ∃ bs', (((deqWrite e.data e.r o).map (fun d => (⟨e.l, e.r + o.length, d⟩ :: qs.map Prod.fst : List DeqBlock)))).map List.reverse = some bs' ∧
          DeqRep C bs' (((b, g) :: ps).reverse.flatMap Prod.snd ++ [o]) := by
      intro e ge qs he hqs hq hle hS
      obtain ⟨d, e1, e2⟩ := block_push_right he ho hle
      refine ⟨_, by rw [e1]; rfl, deqRep_of_reverse ((⟨e.l, e.r + o.length, d⟩, ge ++ [o]) :: qs) rfl ?_ (by simp) ?_ ?_⟩
      · rw [← hS]
        simp [List.reverse_cons, List.flatMap_append, List.append_assoc]
      · intro p hp
        rcases List.mem_cons.1 hp with hp | hp
        · rw [hp]; exact e2
        · exact hqs p hp
      · right
        intro p hp
        rcases List.mem_cons.1 hp with hp | hp
        · rw [hp]; simp
        · rcases hq with hq | hq
          · rw [hq] at hp; simp at hp
          · exact hq p hp
    have hq : ps = [] ∨ ∀ p ∈ ps, p.2 ≠ [] := by
      rcases hcard with h | h
      · left; simpa using h
      · right; exact fun p hp => h p (List.mem_cons_of_mem _ hp)
    show ∃ bs', (deqPushRightRev C junk o (b :: ps.map Prod.fst)).map List.reverse = some bs' ∧ _
    rw [deqPushRightRev]
    rw [if_pos hoC]
    by_cases hlt : b.r + o.length > C
    · simp only [hlt, if_true]
      unfold deqAppendRight
      by_cases hemp : (List.map Prod.fst ps).isEmpty && b.r == b.l
      · simp only [hemp, if_true]
        simp only [Bool.and_eq_true, List.isEmpty_iff, List.map_eq_nil_iff, beq_iff_eq] at hemp
        have hg : g = [] := by
          by_contra hg
          have := flatten_pos hb.pos hg
          have := hb.size
          omega
        exact fin ⟨0, 0, b.data⟩ [] ps (BlockRep.empty hb.len (by omega)) hrest hq (by simp only; omega)
          (by rw [hg]; simp)
      · have hemp' : ((List.map Prod.fst ps).isEmpty && b.r == b.l) = false := by simpa using hemp
        simp only [hemp', Bool.false_eq_true, if_false]
        refine fin ⟨0, 0, junk⟩ [] ((b, g) :: ps) (BlockRep.empty hj (by omega)) hall ?_ (by simp only; omega) (by simp)
        right
        rcases hcard with hc | hc
        · have hps : ps = [] := by simpa using hc
          intro p hp
          rw [hps, List.mem_singleton] at hp
          rw [hp]
          intro hg
          simp only at hg
          apply hemp
          have hsz := hb.size
          have := hb.lr
          rw [hg] at hsz
          simp only [List.flatten_nil, List.length_nil] at hsz
          rw [hps]
          simp; omega
        · exact hc
    · simp only [hlt, if_false]
      exact fin b g ps hb hrest hq (by omega) (by simp)

/-- what remains of the chain after the end block has been shortened -/
theorem chain_tail {C : Nat} {b' : DeqBlock} {g' : List (List Nat)} {ps : List (DeqBlock × List (List Nat))} (hb : BlockRep C b' g')
    (hrest : ∀ p ∈ ps, BlockRep C p.1 p.2) (hq : ps = [] ∨ ∀ p ∈ ps, p.2 ≠ []) :
    ∃ bs', (if b'.l ≥ b'.r then deqEndEmpty b' (ps.map Prod.fst) else some (b' :: ps.map Prod.fst)) = some bs' ∧
      ∃ qs : List (DeqBlock × List (List Nat)), bs' = qs.map Prod.fst ∧ qs.flatMap Prod.snd = g' ++ ps.flatMap Prod.snd ∧
        qs.reverse.flatMap Prod.snd = ps.reverse.flatMap Prod.snd ++ g' ∧ qs ≠ [] ∧
        (∀ p ∈ qs, BlockRep C p.1 p.2) ∧ (qs.length = 1 ∨ ∀ p ∈ qs, p.2 ≠ []) := by
  by_cases hge : b'.l ≥ b'.r
  · rw [if_pos hge]
    have hlr : b'.l = b'.r := by have := hb.lr; omega
    have hg : g' = [] := by
      by_contra hg
      have := flatten_pos hb.pos hg
      have := hb.size
      omega
    unfold deqEndEmpty
    rw [if_pos hlr]
    cases ps with
    | nil =>
      refine ⟨_, rfl, [(⟨0, 0, b'.data⟩, [])], rfl, by rw [hg]; rfl, by rw [hg]; rfl, by simp, ?_, Or.inl rfl⟩
      intro p hp
      rw [List.mem_singleton] at hp
      rw [hp]; exact BlockRep.empty hb.len (by omega)
    | cons q qs =>
      refine ⟨_, rfl, q :: qs, rfl, by rw [hg]; rfl, by rw [hg]; simp, by simp, hrest, ?_⟩
      rcases hq with hq | hq
      · cases hq
      · exact Or.inr hq
  · rw [if_neg hge]
    refine ⟨_, rfl, (b', g') :: ps, rfl, rfl, by simp, by simp, ?_, ?_⟩
    · intro p hp
      rcases List.mem_cons.1 hp with hp | hp
      · rw [hp]; exact hb
      · exact hrest p hp
    · rcases hq with hq | hq
      · left; rw [hq]; rfl
      · right
        intro p hp
        rcases List.mem_cons.1 hp with hp | hp
        · rw [hp]
          intro hg
          simp only at hg
          have := hb.size
          rw [hg] at this
          simp at this
          omega
        · exact hq p hp

theorem deq_pop_left {C : Nat} (hC : C < 2 ^ 32) {bs : List DeqBlock} {S : List (List Nat)} {o : List Nat}
    (h : DeqRep C bs (o :: S)) : ∃ bs', deqPopLeft o.length bs = some (bs', o) ∧ DeqRep C bs' S := by
  obtain ⟨ps, rfl, hS, hne, hall, hcard⟩ := h
  match ps, hne with
  | (b, g) :: ps, _ =>
    have hb : BlockRep C b g := hall (b, g) (List.mem_cons_self ..)
    have hrest : ∀ p ∈ ps, BlockRep C p.1 p.2 := fun p hp => hall p (List.mem_cons_of_mem _ hp)
    have hq : ps = [] ∨ ∀ p ∈ ps, p.2 ≠ [] := by
      rcases hcard with h | h
      · left; simpa using h
      · right; exact fun p hp => h p (List.mem_cons_of_mem _ hp)
    rw [List.flatMap_cons] at hS
    simp only at hS
    obtain ⟨g', hg⟩ : ∃ g', g = o :: g' := by
      cases g with
      | nil =>
        exfalso
        rcases hcard with hc | hc
        · have hps : ps = [] := by simpa using hc
          rw [hps] at hS; simp at hS
        · exact hc ([] |> fun g => (b, g)) (List.mem_cons_self ..) rfl
      | cons o' g' => simp only [List.cons_append, List.cons.injEq] at hS; exact ⟨g', by rw [hS.1]⟩
    subst hg
    simp only [List.cons_append, List.cons.injEq, true_and] at hS
    have hsz := hb.size
    simp only [List.flatten_cons, List.length_append] at hsz
    have h1 := hb.len; have h2 := hb.lr; have h3 := hb.rC
    have hop := hb.pos o (List.mem_cons_self ..)
    have hread : deqRead b.data b.l o.length = some o := by
      unfold deqRead
      rw [if_pos (by omega)]
      have := congrArg (List.take o.length) hb.content
      rw [List.take_take, List.flatten_cons, List.take_left' rfl, Nat.min_eq_left (by omega)] at this
      rw [this]
    have hmod : (b.l + o.length) % 2 ^ 32 = b.l + o.length := Nat.mod_eq_of_lt (by omega)
    have hb' : BlockRep C ⟨b.l + o.length, b.r, b.data⟩ g' := by
      refine ⟨h1, by simp only; omega, h3, ?_, fun x hx => hb.pos x (List.mem_cons_of_mem _ hx)⟩
      simp only
      have := congrArg (List.drop o.length) hb.content
      rw [List.flatten_cons, List.drop_left' rfl, List.drop_take, List.drop_drop] at this
      rw [← this]; congr 1; omega
    obtain ⟨bs', e1, qs, q1, q2, q3, q4, q5, q6⟩ := chain_tail hb' hrest hq
    refine ⟨bs', ?_, qs, q1, by rw [q2]; exact hS, q4, q5, q6⟩
    show deqPopLeft o.length (b :: ps.map Prod.fst) = _
    rw [deqPopLeft]
    simp only [hread, hmod, Option.bind_eq_bind, Option.bind_some, Option.pure_def]
    simp only at e1
    rw [e1]; rfl

theorem deq_pop_right {C : Nat} {bs : List DeqBlock} {S : List (List Nat)} {o : List Nat}
    (h : DeqRep C bs (S ++ [o])) : ∃ bs', deqPopRight o.length bs = some (bs', o) ∧ DeqRep C bs' S := by
  obtain ⟨ps, hbs, hS, hne, hall, hcard⟩ := deqRep_reverse_push h
  unfold deqPopRight
  rw [hbs]
  match ps, hne with
  | (b, g) :: ps, _ =>
    have hb : BlockRep C b g := hall (b, g) (List.mem_cons_self ..)
    have hrest : ∀ p ∈ ps, BlockRep C p.1 p.2 := fun p hp => hall p (List.mem_cons_of_mem _ hp)
    have hq : ps = [] ∨ ∀ p ∈ ps, p.2 ≠ [] := by
      rcases hcard with h | h
      · left; simpa using h
      · right; exact fun p hp => h p (List.mem_cons_of_mem _ hp)
    simp only [List.reverse_cons, List.flatMap_append, List.flatMap_cons, List.flatMap_nil, List.append_nil] at hS
    obtain ⟨g', hg⟩ : ∃ g', g = g' ++ [o] := by
      rcases List.eq_nil_or_concat g with hg | ⟨g', o', hg⟩
      · exfalso
        rcases hcard with hc | hc
        · have hps : ps = [] := by simpa using hc
          rw [hps, hg] at hS; simp at hS
        · exact hc (b, g) (List.mem_cons_self ..) hg
      · rw [List.concat_eq_append] at hg
        rw [hg, ← List.append_assoc] at hS
        have := List.append_inj_right' hS rfl
        simp only [List.cons.injEq, and_true] at this
        exact ⟨g', by rw [hg, this]⟩
    subst hg
    rw [← List.append_assoc] at hS
    have hS' := List.append_cancel_right hS
    have hsz := hb.size
    simp only [List.flatten_append, List.flatten_cons, List.flatten_nil, List.append_nil, List.length_append] at hsz
    have h1 := hb.len; have h2 := hb.lr; have h3 := hb.rC
    have hc := hb.content
    simp only [List.flatten_append, List.flatten_cons, List.flatten_nil, List.append_nil] at hc
    have hread : deqRead b.data (b.r - o.length) o.length = some o := by
      unfold deqRead
      rw [if_pos (by omega)]
      have := congrArg (List.drop g'.flatten.length) hc
      rw [List.drop_left' rfl, List.drop_take, List.drop_drop] at this
      rw [show b.l + g'.flatten.length = b.r - o.length by omega, show b.r - b.l - g'.flatten.length = o.length by omega] at this
      rw [this]
    have hb' : BlockRep C ⟨b.l, b.r - o.length, b.data⟩ g' := by
      refine ⟨h1, by simp only; omega, by simp only; omega, ?_, fun x hx => hb.pos x (List.mem_append_left _ hx)⟩
      simp only
      have := congrArg (List.take g'.flatten.length) hc
      rw [List.take_left' rfl, List.take_take, Nat.min_eq_left (by omega)] at this
      rw [← this]; congr 1; omega
    obtain ⟨bs', e1, qs, q1, q2, q3, q4, q5, q6⟩ := chain_tail hb' hrest hq
    refine ⟨bs'.reverse, ?_, deqRep_of_reverse qs q1 (by rw [q3]; exact hS') q4 q5 q6⟩
    show (deqPopRightRev o.length (b :: ps.map Prod.fst)).map _ = _
    rw [deqPopRightRev]
    rw [if_neg (by omega)]
    simp only [hread, Option.bind_eq_bind, Option.bind_some, Option.pure_def]
    simp only [ge_iff_le] at e1
    rw [e1]; rfl

/-- C34: each operation of the deq is the operation on the list of objects. -/
theorem deq_step_refines {C : Nat} (hC : C < 2 ^ 32) {junk : List Nat} (hj : junk.length = C) {bs : List DeqBlock}
    {S S' : List (List Nat)} {r : Option (List Nat)} (h : DeqRep C bs S) (op : DeqOp) (hs : deqSpec C S op = some (S', r)) :
    ∃ bs', deqStep C junk bs op = some (bs', r) ∧ DeqRep C bs' S' := by
  cases op with
  | pushL o =>
    simp only [deqSpec] at hs
    split at hs
    · next hc =>
      cases hs
      obtain ⟨bs', e1, e2⟩ := deq_push_left hj h hc.1 hc.2
      exact ⟨bs', by simp only [deqStep, e1, Option.map_some], e2⟩
    · cases hs
  | pushR o =>
    simp only [deqSpec] at hs
    split at hs
    · next hc =>
      cases hs
      obtain ⟨bs', e1, e2⟩ := deq_push_right hj h hc.1 hc.2
      exact ⟨bs', by simp only [deqStep, e1, Option.map_some], e2⟩
    · cases hs
  | popL n =>
    cases S with
    | nil => simp only [deqSpec] at hs; cases hs
    | cons o rest =>
      simp only [deqSpec] at hs
      split at hs
      · next hn =>
        cases hs
        obtain ⟨bs', e1, e2⟩ := deq_pop_left hC h
        exact ⟨bs', by simp only [deqStep, ← hn, e1, Option.map_some], e2⟩
      · cases hs
  | popR n =>
    simp only [deqSpec] at hs
    split at hs
    · next o rest hrev =>
      split at hs
      · next hn =>
        cases hs
        have hS : S = rest.reverse ++ [o] := by
          rw [← List.reverse_reverse S, hrev, List.reverse_cons]
        rw [hS] at h
        obtain ⟨bs', e1, e2⟩ := deq_pop_right h
        exact ⟨bs', by simp only [deqStep, ← hn, e1, Option.map_some], e2⟩
      · cases hs
    · cases hs

/-- runs -/
def deqSpecRun (C : Nat) : List (List Nat) → List DeqOp → Option (List (List Nat) × List (Option (List Nat)))
  | S, [] => some (S, [])
  | S, op :: ops => do let (S, r) ← deqSpec C S op; let (S, rs) ← deqSpecRun C S ops; pure (S, r :: rs)
def deqRun (C : Nat) (junk : List Nat) : List DeqBlock → List DeqOp → Option (List DeqBlock × List (Option (List Nat)))
  | bs, [] => some (bs, [])
  | bs, op :: ops => do let (bs, r) ← deqStep C junk bs op; let (bs, rs) ← deqRun C junk bs ops; pure (bs, r :: rs)

theorem deq_refines {C : Nat} (hC : C < 2 ^ 32) {junk : List Nat} (hj : junk.length = C) (ops : List DeqOp) :
    ∀ {bs : List DeqBlock} {S S' : List (List Nat)} {rs : List (Option (List Nat))}, DeqRep C bs S →
    deqSpecRun C S ops = some (S', rs) → ∃ bs', deqRun C junk bs ops = some (bs', rs) ∧ DeqRep C bs' S' := by
  induction ops with
  | nil => intro bs S S' rs h hs; cases hs; exact ⟨bs, rfl, h⟩
  | cons op ops ih =>
    intro bs S S' rs h hs
    rw [deqSpecRun] at hs
    cases e1 : deqSpec C S op with
    | none => rw [e1] at hs; cases hs
    | some q =>
      obtain ⟨S1, r⟩ := q
      rw [e1] at hs
      simp only [Option.bind_eq_bind, Option.bind_some, Option.pure_def] at hs
      cases e2 : deqSpecRun C S1 ops with
      | none => rw [e2] at hs; cases hs
      | some q2 =>
        obtain ⟨S2, rs2⟩ := q2
        rw [e2] at hs
        cases hs
        obtain ⟨b1, f1, h1⟩ := deq_step_refines hC hj h op e1
        obtain ⟨b2, f2, h2⟩ := ih h1 e2
        refine ⟨b2, ?_, h2⟩
        rw [deqRun, f1]
        simp only [Option.bind_eq_bind, Option.bind_some, Option.pure_def]
        rw [f2]; rfl

theorem deq_init_rep {C : Nat} {junk : List Nat} (hj : junk.length = C) : DeqRep C (deqInit junk) [] := by
  refine ⟨[(⟨0, 0, junk⟩, [])], rfl, rfl, by simp, ?_, Or.inl rfl⟩
  intro p hp
  rw [List.mem_singleton] at hp
  rw [hp]; exact BlockRep.empty hj (by omega)

/-- C34: every sequence of operations that is legal on a list of objects is
executed by the deq (no assertion fails) with the same answers. -/
theorem deq_new_refines {C : Nat} (hC : C < 2 ^ 32) {junk : List Nat} (hj : junk.length = C) (ops : List DeqOp)
    {S : List (List Nat)} {rs : List (Option (List Nat))} (hs : deqSpecRun C [] ops = some (S, rs)) :
    ∃ bs, deqRun C junk (deqInit junk) ops = some (bs, rs) ∧ DeqRep C bs S :=
  deq_refines hC hj ops (deq_init_rep hj) hs

/-- C34: `deq_empty` is exact. -/
theorem deq_empty_iff {C : Nat} {bs : List DeqBlock} {S : List (List Nat)} (h : DeqRep C bs S) : deqEmpty bs = true ↔ S = [] := by
  obtain ⟨ps, rfl, rfl, hne, hall, hcard⟩ := h
  match ps, hne with
  | [(b, g)], _ =>
    have hb := hall _ (List.mem_cons_self ..)
    have hsz := hb.size
    have hlr := hb.lr
    simp only at hsz hlr
    show (b.l == b.r) = true ↔ g ++ [] = []
    rw [beq_iff_eq, List.append_nil]
    constructor
    · intro he
      by_contra hg
      have := flatten_pos hb.pos hg
      simp only at this
      omega
    · intro hg
      rw [hg] at hsz
      simp at hsz
      omega
  | (b, g) :: (b2, g2) :: ps, _ =>
    constructor
    · intro h; cases h
    · intro hS
      rcases hcard with h | h
      · simp at h
      · have := h (b, g) (List.mem_cons_self ..)
        simp only [List.flatMap_cons, List.append_eq_nil_iff] at hS
        exact absurd hS.1 this

/-- C34: walking the blocks visits exactly the objects in order. -/
theorem deq_iterate {C : Nat} {bs : List DeqBlock} {S : List (List Nat)} (h : DeqRep C bs S) : deqIterate bs = S.flatten := by
  obtain ⟨ps, rfl, rfl, -, hall, -⟩ := h
  unfold deqIterate
  induction ps with
  | nil => rfl
  | cons p ps ih =>
    rw [List.map_cons, List.flatMap_cons, List.flatMap_cons, List.flatten_append,
      (hall p (List.mem_cons_self ..)).content, ih fun q hq => hall q (List.mem_cons_of_mem _ hq)]

/-- a shrink that is larger than the content of the end block fails its assertion -/
theorem deq_shrink_too_much : deqPopLeft 1 (deqInit (List.replicate 8 0)) = none := by decide

/-- non-vacuity: blocks of 8 bytes, objects of 3 and 2 bytes, several blocks -/
example : deqSpecRun 8 [] [.pushR [1, 2, 3], .pushR [4, 5, 6], .pushR [7, 8], .pushL [9, 9, 9], .popR 2, .popL 3, .popL 3, .popL 3] =
    some ([], [none, none, none, none, some [7, 8], some [9, 9, 9], some [1, 2, 3], some [4, 5, 6]]) := by decide
example : (deqRun 8 (List.replicate 8 0) (deqInit (List.replicate 8 0))
    [.pushR [1, 2, 3], .pushR [4, 5, 6], .pushR [7, 8], .pushL [9, 9, 9], .pushL [1, 1, 1]]).map (·.1.length) = some 2 := by decide

end Verif.Props
