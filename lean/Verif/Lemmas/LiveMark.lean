import Verif.Lemmas.LiveArrays
/-!
# Lemmas: the search of the blocks in which a value is live
-/
namespace Verif.Model.LiveSets
open Verif.Model.Dom Verif.Model.LiveChk Verif.Spec

/-- the bits of `s` are bits of `t` -/
structure Le (s t : State) : Prop where
  inn : s.inn = true → t.inn = true
  end_ : s.end_ = true → t.end_ = true
  out : s.out = true → t.out = true

theorem Le.refl (s : State) : Le s s := ⟨id, id, id⟩

theorem Le.trans {s t u : State} (h1 : Le s t) (h2 : Le t u) : Le s u := ⟨h2.inn ∘ h1.inn, h2.end_ ∘ h1.end_, h2.out ∘ h1.out⟩

theorem le_or (s t : State) : Le s (or s t) := ⟨fun h => by simp [or, h], fun h => by simp [or, h], fun h => by simp [or, h]⟩

theorem Le.none {s t : State} (h : Le s t) (ht : t = State.none) : s = State.none := by
  subst ht
  obtain ⟨a, b, c⟩ := s
  obtain ⟨h1, h2, h3⟩ := h
  cases a <;> cases b <;> cases c <;> simp_all

/-- the predecessors in a graph with the blocks below `n` -/
structure InsOk (n : Nat) (ins : Nat → List (Option Nat)) : Prop where
  lt : ∀ c p, c < n → some p ∈ ins c → p < n
  bad : ∀ c, c < n → none ∉ ins c

section
variable (n : Nat) (ins : Nat → List (Option Nat)) (x d : Nat)

/-- the number of blocks without a flag -/
def cnt (m : Map) : Nat := ((List.range n).filter fun c => val m c x = State.none).length

/-- the predecessors of a block at whose begin the value is live have flags, for all blocks but those in `X` -/
def Closed (m : Map) (X : Nat → Prop) : Prop := ∀ c, c < n → ¬ X c → (val m c x ≠ State.none → c ≠ d → (val m c x).inn = true) ∧
  ((val m c x).inn = true → ∀ p, some p ∈ ins c → (val m p x).end_ = true ∧ (val m p x).out = true)

/-- each flag is right -/
def Sound (U P : Nat → Prop) (m : Map) : Prop := ∀ c, ((val m c x).inn = true → LiveIn (fun p c => some p ∈ ins c) d U c) ∧
  ((val m c x).end_ = true → LiveEnd (fun p c => some p ∈ ins c) d U P c) ∧ ((val m c x).out = true → LiveOut (fun p c => some p ∈ ins c) d U c)

/-- what a step does -/
structure Ext (m m' : Map) : Prop where
  wf : Wf m'
  le : ∀ c, Le (val m c x) (val m' c x)
  other : ∀ c y, y ≠ 0 → y ≠ x → val m' c y = val m c y
  closed : ∀ X, Closed n ins x d m X → Closed n ins x d m' X

variable {n ins x d}

theorem Ext.trans {m1 m2 m3 : Map} (h1 : Ext n ins x d m1 m2) (h2 : Ext n ins x d m2 m3) : Ext n ins x d m1 m3 :=
  ⟨h2.wf, fun c => (h1.le c).trans (h2.le c), fun c y hy hyx => (h2.other c y hy hyx).trans (h1.other c y hy hyx), fun X h => h2.closed X (h1.closed X h)⟩

theorem Ext.refl {m : Map} (h : Wf m) : Ext n ins x d m m := ⟨h, fun _ => .refl _, fun _ _ _ _ => rfl, fun _ h => h⟩

theorem length_filter_le {α : Type} {p q : α → Bool} (h : ∀ a, p a = true → q a = true) (l : List α) : (l.filter p).length ≤ (l.filter q).length := by
  induction l with
  | nil => simp
  | cons a l ih =>
    by_cases hp : p a = true
    · rw [List.filter_cons_of_pos hp, List.filter_cons_of_pos (h a hp)]
      simp; omega
    · rw [List.filter_cons_of_neg hp]
      by_cases hq : q a = true
      · rw [List.filter_cons_of_pos hq]; simp; omega
      · rw [List.filter_cons_of_neg hq]; exact ih

theorem length_filter_lt {α : Type} {p q : α → Bool} (h : ∀ a, p a = true → q a = true) {l : List α} {b : α} (hb : b ∈ l) (h1 : p b ≠ true) (h2 : q b = true) :
    (l.filter p).length < (l.filter q).length := by
  induction l with
  | nil => simp at hb
  | cons a l ih =>
    rcases List.mem_cons.1 hb with rfl | hb
    · rw [List.filter_cons_of_neg h1, List.filter_cons_of_pos h2]
      have := length_filter_le h l
      simp; omega
    · have := ih hb
      by_cases hp : p a = true
      · rw [List.filter_cons_of_pos hp, List.filter_cons_of_pos (h a hp)]
        simp; omega
      · rw [List.filter_cons_of_neg hp]
        by_cases hq : q a = true
        · rw [List.filter_cons_of_pos hq]; simp; omega
        · rw [List.filter_cons_of_neg hq]; exact this

theorem cnt_le {m m' : Map} (h : ∀ c, Le (val m c x) (val m' c x)) : cnt n x m' ≤ cnt n x m :=
  length_filter_le (fun c hc => by
    rw [decide_eq_true_eq] at hc ⊢
    exact (h c).none hc) _

theorem cnt_lt {m m' : Map} (h : ∀ c, Le (val m c x) (val m' c x)) {b : Nat} (hb : b < n) (h1 : val m b x = State.none) (h2 : val m' b x ≠ State.none) :
    cnt n x m' < cnt n x m :=
  length_filter_lt (fun c hc => by
    rw [decide_eq_true_eq] at hc ⊢
    exact (h c).none hc) (List.mem_range.2 hb) (by simpa using h2) (by rw [decide_eq_true_eq]; exact h1)

variable {U P : Nat → Prop}

/-- one call of the recursion -/
def CallOk (n : Nat) (ins : Nat → List (Option Nat)) (x d : Nat) (U P : Nat → Prop) (b : Nat) (out : Bool) (m m' : Map) : Prop :=
  Ext n ins x d m m' ∧ (val m' b x).end_ = true ∧ (out = true → (val m' b x).out = true) ∧
    (Sound ins x d U P m → LiveEnd (fun p c => some p ∈ ins c) d U P b → (out = true → LiveOut (fun p c => some p ∈ ins c) d U b) → Sound ins x d U P m')

theorem each_ok {f : Option Nat → Map → Option Map} {N : Nat} (hf : ∀ b m, b < n → Wf m → cnt n x m < N → ∃ m', f (some b) m = some m' ∧ CallOk n ins x d U P b true m m')
    (ps : List (Option Nat)) : ∀ (m : Map), Wf m → cnt n x m < N → (∀ p ∈ ps, ∃ b, p = some b ∧ b < n) → ∃ m', each f ps m = some m' ∧ Ext n ins x d m m' ∧
      (∀ b, some b ∈ ps → (val m' b x).end_ = true ∧ (val m' b x).out = true) ∧
      (Sound ins x d U P m → (∀ b, some b ∈ ps → LiveOut (fun p c => some p ∈ ins c) d U b) → Sound ins x d U P m') := by
  induction ps with
  | nil => intro m hw _ _; exact ⟨m, rfl, .refl hw, by simp, fun h _ => h⟩
  | cons p ps ih =>
    intro m hw hc hp
    obtain ⟨b, rfl, hb⟩ := hp p (by simp)
    obtain ⟨m1, h1, h2, h3, h4, h5⟩ := hf b m hb hw hc
    obtain ⟨m2, t1, t2, t3, t4⟩ := ih m1 h2.wf (Nat.lt_of_le_of_lt (cnt_le h2.le) hc) fun q hq => hp q (List.mem_cons_of_mem _ hq)
    refine ⟨m2, by rw [each, h1]; exact t1, h2.trans t2, fun c hcm => ?_, fun hs hl => ?_⟩
    · rcases List.mem_cons.1 hcm with e | hcm
      · cases e
        exact ⟨(t2.le _).end_ h3, (t2.le _).out (h4 rfl)⟩
      · exact t3 c hcm
    · refine t4 (h5 hs (Or.inr (hl b (by simp))) fun _ => hl b (by simp)) fun c hcm => hl c (List.mem_cons_of_mem _ hcm)

/-- a flag is set at `b` -/
theorem mark_ok {m : Map} (hw : Wf m) (hx : x ≠ 0) (b : Nat) (s : State) : ∃ m', mark m b x s = some (val m b x, m') ∧ Wf m' ∧
    val m' b x = or (val m b x) s ∧ (∀ c, c ≠ b → val m' c x = val m c x) ∧ (∀ c, Le (val m c x) (val m' c x)) ∧
    (∀ c y, y ≠ 0 → y ≠ x → val m' c y = val m c y) ∧ (∀ X, Closed n ins x d m X → Closed n ins x d m' fun c => X c ∨ c = b) := by
  obtain ⟨m', h1, h2, h3, h4⟩ := mark_spec hw hx (b := b) s
  have hle : ∀ c, Le (val m c x) (val m' c x) := by
    intro c
    by_cases e : c = b
    · subst e; rw [h3]; exact le_or _ _
    · rw [h4 c x hx (Or.inl e)]; exact .refl _
  refine ⟨m', h1, h2, h3, fun c hc => h4 c x hx (Or.inl hc), hle, fun c y hy hyx => h4 c y hy (Or.inr hyx), fun X hX c hc hcX => ?_⟩
  have hcb : c ≠ b := fun e => hcX (Or.inr e)
  obtain ⟨r1, r2⟩ := hX c hc fun e => hcX (Or.inl e)
  rw [h4 c x hx (Or.inl hcb)]
  exact ⟨r1, fun hi p hp => ⟨(hle p).end_ (r2 hi p hp).1, (hle p).out (r2 hi p hp).2⟩⟩

theorem sound_mark {m m' : Map} {b : Nat} {s : State} (h3 : val m' b x = or (val m b x) s) (h4 : ∀ c, c ≠ b → val m' c x = val m c x) (hs : Sound ins x d U P m)
    (h1 : s.inn = true → LiveIn (fun p c => some p ∈ ins c) d U b) (h2 : s.end_ = true → LiveEnd (fun p c => some p ∈ ins c) d U P b)
    (h5 : s.out = true → LiveOut (fun p c => some p ∈ ins c) d U b) : Sound ins x d U P m' := by
  intro c
  by_cases e : c = b
  · subst e
    rw [h3]
    obtain ⟨s1, s2, s3⟩ := hs c
    simp only [or, Bool.or_eq_true]
    exact ⟨fun h => h.elim s1 h1, fun h => h.elim s2 h2, fun h => h.elim s3 h5⟩
  · rw [h4 c e]; exact hs c

theorem liveEndAt_ok (hI : InsOk n ins) (hx : x ≠ 0) (hP : ∀ c, P c → U c) : ∀ (fuel b : Nat) (out : Bool) (m : Map), b < n → Wf m → cnt n x m < fuel →
    ∃ m', liveEndAt ins x d fuel (some b) out m = some m' ∧ CallOk n ins x d U P b out m m' := by
  intro fuel
  induction fuel with
  | zero => intro b out m _ _ h; omega
  | succ fuel ih =>
    intro b out m hb hw hc
    obtain ⟨m1, a1, a2, a3, a4, a5, a6, a7⟩ := mark_ok (n := n) (ins := ins) (d := d) hw hx b ⟨false, true, out⟩
    have hs1 : Sound ins x d U P m → LiveEnd (fun p c => some p ∈ ins c) d U P b → (out = true → LiveOut (fun p c => some p ∈ ins c) d U b) →
        Sound ins x d U P m1 := fun hs h1 h2 => sound_mark a3 a4 hs (fun h => by cases h) (fun _ => h1) h2
    have hend : (val m1 b x).end_ = true := by rw [a3]; simp [or]
    have hout : out = true → (val m1 b x).out = true := fun h => by rw [a3]; simp [or, h]
    unfold liveEndAt
    rw [a1]
    simp only
    by_cases c1 : val m b x ≠ State.none
    · rw [if_pos c1]
      refine ⟨m1, rfl, ⟨a2, a5, a6, fun X hX c hc hcX => ?_⟩, hend, hout, hs1⟩
      by_cases e : c = b
      · subst e
        obtain ⟨r1, r2⟩ := hX c hc hcX
        have hinn : (val m1 c x).inn = (val m c x).inn := by rw [a3]; simp [or]
        rw [hinn]
        exact ⟨fun _ hcd => r1 c1 hcd, fun hi p hp => ⟨(a5 p).end_ (r2 hi p hp).1, (a5 p).out (r2 hi p hp).2⟩⟩
      · exact a7 X hX c hc fun h => h.elim hcX e
    · rw [if_neg c1]
      have c1 : val m b x = State.none := Classical.not_not.1 c1
      by_cases c2 : d = b
      · rw [if_pos c2]
        refine ⟨m1, rfl, ⟨a2, a5, a6, fun X hX c hc hcX => ?_⟩, hend, hout, hs1⟩
        by_cases e : c = b
        · subst e
          refine ⟨fun _ hcd => absurd c2.symm hcd, fun hi => ?_⟩
          rw [a3, c1] at hi
          simp [or] at hi
        · exact a7 X hX c hc fun h => h.elim hcX e
      · rw [if_neg c2]
        obtain ⟨m2, b1, b2, b3, b4, b5, b6, b7⟩ := mark_ok (n := n) (ins := ins) (d := d) a2 hx b ⟨true, false, false⟩
        rw [b1]
        simp only
        have hne : val m2 b x ≠ State.none := by
          rw [b3]
          intro h
          have : (or (val m1 b x) ⟨true, false, false⟩).inn = State.none.inn := by rw [h]
          simp [or] at this
        have hcnt : cnt n x m2 < fuel := by
          have := cnt_lt (n := n) (fun c => (a5 c).trans (b5 c)) hb c1 hne
          omega
        obtain ⟨m3, t1, t2, t3, t4⟩ := each_ok (f := fun p m => liveEndAt ins x d fuel p true m) (N := fuel)
          (fun b m hb hw hc => ih b true m hb hw hc) (ins b).reverse m2 b2 hcnt fun p hp => by
            rw [List.mem_reverse] at hp
            cases p with
            | none => exact absurd hp (hI.bad b hb)
            | some p => exact ⟨p, rfl, hI.lt b p hb hp⟩
        refine ⟨m3, t1, ⟨t2.wf, fun c => ((a5 c).trans (b5 c)).trans (t2.le c),
          fun c y hy hyx => ((t2.other c y hy hyx).trans (b6 c y hy hyx)).trans (a6 c y hy hyx), fun X hX c hc hcX => ?_⟩,
          (t2.le b).end_ ((b5 b).end_ hend), fun h => (t2.le b).out ((b5 b).out (hout h)), fun hs h1 h2 => ?_⟩
        · by_cases e : c = b
          · subst e
            have hinn : (val m3 c x).inn = true := (t2.le c).inn (by rw [b3]; simp [or])
            exact ⟨fun _ _ => hinn, fun _ p hp => t3 p (List.mem_reverse.2 hp)⟩
          · exact t2.closed _ (b7 _ (a7 X hX)) c hc fun h => h.elim (fun h => h.elim hcX e) e
        · have hin : LiveIn (fun p c => some p ∈ ins c) d U b := by
            rw [liveIn_iff c2]
            rcases h1 with h1 | h1
            · exact Or.inl (hP b h1)
            · exact Or.inr h1
          refine t4 (sound_mark b3 b4 (hs1 hs h1 h2) (fun _ => hin) (fun h => by cases h) (fun h => by cases h)) fun p hp => ?_
          exact ⟨b, List.mem_reverse.1 hp, hin⟩

/-- what is known about a user that has been visited -/
def Done (x d : Nat) (m : Map) (u : Use) : Prop :=
  ∀ b, u.block = some b → if u.phi then (val m b x).end_ = true else d ≠ b → (val m b x).inn = true

theorem liveUse_ok (hI : InsOk n ins) (hx : x ≠ 0) (hP : ∀ c, P c → U c) {fuel : Nat} {u : Use} {b : Nat} (hu : u.block = some b) (hb : b < n) {m : Map} (hw : Wf m)
    (hf : n < fuel) (hU : U b) (hUP : u.phi = true → P b) : ∃ m', liveUse ins x d fuel u m = some m' ∧ Ext n ins x d m m' ∧ Done x d m' u ∧
      (Sound ins x d U P m → Sound ins x d U P m') := by
  have hcnt : ∀ m, cnt n x m < fuel := fun m => by
    have := List.length_filter_le (fun c => decide (val m c x = State.none)) (List.range n)
    rw [List.length_range] at this
    exact Nat.lt_of_le_of_lt this hf
  unfold liveUse
  rw [hu]
  by_cases hp : u.phi = true
  · rw [if_pos hp]
    obtain ⟨m', h1, h2, h3, -, h5⟩ := liveEndAt_ok (d := d) hI hx hP fuel b false m hb hw (hcnt m)
    refine ⟨m', h1, h2, fun c hc => ?_, fun hs => h5 hs (Or.inl (hUP hp)) (fun h => by cases h)⟩
    rw [hu] at hc
    cases hc
    rw [if_pos hp]
    exact h3
  · rw [if_neg hp]
    simp only
    by_cases hd : d ≠ b
    · rw [if_pos hd]
      obtain ⟨m2, b1, b2, b3, b4, b5, b6, b7⟩ := mark_ok (n := n) (ins := ins) (d := d) hw hx b ⟨true, false, false⟩
      rw [b1]
      simp only
      obtain ⟨m3, t1, t2, t3, t4⟩ := each_ok (U := U) (P := P) (f := fun p m => liveEndAt ins x d fuel p true m) (N := fuel)
          (fun b m hb hw hc => liveEndAt_ok hI hx hP fuel b true m hb hw hc) (ins b).reverse m2 b2 (hcnt m2) fun p hp => by
            rw [List.mem_reverse] at hp
            cases p with
            | none => exact absurd hp (hI.bad b hb)
            | some p => exact ⟨p, rfl, hI.lt b p hb hp⟩
      have hinn : (val m3 b x).inn = true := (t2.le b).inn (by rw [b3]; simp [or])
      refine ⟨m3, t1, ⟨t2.wf, fun c => (b5 c).trans (t2.le c),
          fun c y hy hyx => (t2.other c y hy hyx).trans (b6 c y hy hyx), fun X hX c hc hcX => ?_⟩, fun c hc => ?_, fun hs => ?_⟩
      · by_cases e : c = b
        · subst e
          exact ⟨fun _ _ => hinn, fun _ p hp => t3 p (List.mem_reverse.2 hp)⟩
        · exact t2.closed _ (b7 _ hX) c hc fun h => h.elim hcX e
      · rw [hu] at hc
        cases hc
        rw [if_neg hp]
        exact fun _ => hinn
      · have hin : LiveIn (fun p c => some p ∈ ins c) d U b := (liveIn_iff hd).2 (Or.inl hU)
        exact t4 (sound_mark b3 b4 hs (fun _ => hin) (fun h => by cases h) (fun h => by cases h)) fun p hp => ⟨b, List.mem_reverse.1 hp, hin⟩
    · rw [if_neg hd]
      refine ⟨m, rfl, .refl hw, fun c hc => ?_, fun h => h⟩
      rw [hu] at hc
      cases hc
      rw [if_neg hp]
      exact fun h => absurd h hd

theorem Done.mono {m m' : Map} (h : ∀ c, Le (val m c x) (val m' c x)) {u : Use} (hd : Done x d m u) : Done x d m' u := by
  intro b hb
  have := hd b hb
  by_cases hp : u.phi = true
  · rw [if_pos hp] at this ⊢
    exact (h b).end_ this
  · rw [if_neg hp] at this ⊢
    exact fun hh => (h b).inn (this hh)

theorem forNode_ok (hI : InsOk n ins) (hx : x ≠ 0) (hP : ∀ c, P c → U c) {fuel : Nat} (hf : n < fuel) (us : List Use) : ∀ {m : Map}, Wf m →
    (∀ u ∈ us, ∃ b, u.block = some b ∧ b < n ∧ U b ∧ (u.phi = true → P b)) →
    ∃ m', forNode ins fuel ⟨x, d, us⟩ m = some m' ∧ Ext n ins x d m m' ∧ (∀ u ∈ us, Done x d m' u) ∧ (Sound ins x d U P m → Sound ins x d U P m') := by
  induction us with
  | nil => intro m hw _; exact ⟨m, rfl, .refl hw, by simp, fun h => h⟩
  | cons u us ih =>
    intro m hw hu
    obtain ⟨b, u1, u2, u3, u4⟩ := hu u (by simp)
    obtain ⟨m1, h1, h2, h3, h4⟩ := liveUse_ok (d := d) hI hx hP u1 u2 hw hf u3 u4
    obtain ⟨m2, t1, t2, t3, t4⟩ := ih h2.wf fun q hq => hu q (List.mem_cons_of_mem _ hq)
    refine ⟨m2, ?_, h2.trans t2, fun q hq => ?_, fun hs => t4 (h4 hs)⟩
    · unfold forNode at t1 ⊢
      rw [each, h1]
      exact t1
    · rcases List.mem_cons.1 hq with rfl | hq
      · exact h3.mono t2.le
      · exact t3 q hq

end

/-- exactly the right flags, for the blocks of the graph -/
def Exact (n : Nat) (ins : Nat → List (Option Nat)) (x d : Nat) (U P : Nat → Prop) (m : Map) : Prop := ∀ b, b < n →
  ((val m b x).inn = true ↔ LiveIn (fun p c => some p ∈ ins c) d U b) ∧ ((val m b x).end_ = true ↔ LiveEnd (fun p c => some p ∈ ins c) d U P b) ∧
  ((val m b x).out = true ↔ LiveOut (fun p c => some p ∈ ins c) d U b)

theorem exact_of {n : Nat} {ins : Nat → List (Option Nat)} {x d : Nat} {U P : Nat → Prop} {m : Map} (hI : InsOk n ins) (hU : ∀ c, U c → c < n)
    (hc : Closed n ins x d m fun _ => False) (hs : Sound ins x d U P m)
    (hd1 : ∀ c, U c → c ≠ d → (val m c x).inn = true ∨ (val m c x).end_ = true) (hd2 : ∀ c, P c → (val m c x).end_ = true) : Exact n ins x d U P m := by
  have inn : ∀ b, LiveIn (fun p c => some p ∈ ins c) d U b → (val m b x).inn = true := by
    rintro b ⟨l, u, hl, hu, hdl⟩
    have step : ∀ b, b < n → b ≠ d → val m b x ≠ State.none → (val m b x).inn = true := fun b hb hbd h => (hc b hb (fun h => h)).1 h hbd
    have : b < n ∧ (val m b x).inn = true := by
      induction hl with
      | nil v =>
        have hv : v ≠ d := fun e => hdl (by simp [e])
        refine ⟨hU _ hu, step v (hU _ hu) hv fun h => ?_⟩
        rcases hd1 v hu hv with hh | hh <;> rw [h] at hh <;> cases hh
      | @cons v w u l e hp ih =>
        obtain ⟨i1, i2⟩ := ih hu fun h => hdl (List.mem_cons_of_mem _ h)
        have hv := hI.lt w v i1 e
        refine ⟨hv, step v hv (fun e => hdl (by simp [e])) fun h => ?_⟩
        have := ((hc w i1 (fun h => h)).2 i2 v e).1
        rw [h] at this
        cases this
    exact this.2
  have out : ∀ b, LiveOut (fun p c => some p ∈ ins c) d U b → (val m b x).out = true ∧ (val m b x).end_ = true := by
    rintro b ⟨c, h1, h2⟩
    have hcn : c < n := by
      obtain ⟨l, u, hl, hu, hdl⟩ := h2
      clear hdl h1
      induction hl with
      | nil v => exact hU _ hu
      | @cons v w u l e hp ih => exact hI.lt w v (ih hu) e
    have := (hc c hcn (fun h => h)).2 (inn c h2) b h1
    exact ⟨this.2, this.1⟩
  intro b _
  obtain ⟨s1, s2, s3⟩ := hs b
  refine ⟨⟨s1, inn b⟩, ⟨s2, ?_⟩, ⟨s3, fun h => (out b h).1⟩⟩
  rintro (h | h)
  · exact hd2 b h
  · exact (out b h).2

theorem le_none (m : Map) (x d : Nat) (n : Nat) (ins : Nat → List (Option Nat)) (h : ∀ c, val m c x = State.none) : Closed n ins x d m fun _ => False := by
  intro c _ _
  rw [h c]
  exact ⟨fun hh => absurd rfl hh, fun hh => by cases hh⟩

theorem sound_none (m : Map) (x d : Nat) (ins : Nat → List (Option Nat)) (U P : Nat → Prop) (h : ∀ c, val m c x = State.none) : Sound ins x d U P m := by
  intro c
  rw [h c]
  exact ⟨fun hh => (nomatch hh), fun hh => (nomatch hh), fun hh => (nomatch hh)⟩

/-- flags from before are removed everywhere -/
theorem remove_ok {x : Nat} (hx : x ≠ 0) (bs : List Nat) : ∀ {m : Map}, Wf m → ∃ m', each (removeAt x) bs m = some m' ∧ Wf m' ∧ (∀ b ∈ bs, val m' b x = State.none) ∧
    (∀ b, b ∉ bs → val m' b x = val m b x) ∧ ∀ b y, y ≠ 0 → y ≠ x → val m' b y = val m b y := by
  induction bs with
  | nil => intro m hw; exact ⟨m, rfl, hw, by simp, fun _ _ => rfl, fun _ _ _ _ => rfl⟩
  | cons b bs ih =>
    intro m hw
    obtain ⟨m1, h1, h2, h3, h4⟩ := removeAt_spec hw hx (b := b)
    obtain ⟨m2, t1, t2, t3, t4, t5⟩ := ih h2
    refine ⟨m2, by rw [each, h1]; exact t1, t2, fun c hc => ?_, fun c hc => ?_, fun c y hy hyx => ?_⟩
    · by_cases hcb : c ∈ bs
      · exact t3 c hcb
      · rw [t4 c hcb]
        rcases List.mem_cons.1 hc with rfl | hc
        · exact h3
        · exact absurd hc hcb
    · simp only [List.mem_cons, not_or] at hc
      rw [t4 c hc.2, h4 c x hx (Or.inl hc.1)]
    · rw [t5 c y hy hyx, h4 c y hy (Or.inr hyx)]

end Verif.Model.LiveSets
