import Verif.Model.Returns
/-!
# One Return or many (C126)
-/
namespace Verif.Props.Returns

open Verif.Spec.Returns Verif.Model.Returns

variable {V : Type} {g : Graph} {body : Nat → (Nat → V) → Nat → V} {σ : Nat → V}

/-- the operand has the value before the block that the old one has in it -/
theorem operand_value (hb : IsBody g body) {b i o : Nat} (π : Path) (ho : (g.phi o).isSome = true ∨ g.blk o ≠ b) :
    eval g body σ π (operand g b i o) = eval g body σ ((b, i) :: π) o := by
  rw [eval, hb b _ o ho.symm]
  unfold operand enter
  rcases hp : g.phi o with _ | f
  · rfl
  · dsimp only
    by_cases h : g.blk o = b
    · rw [if_pos h, if_pos h]
    · rw [if_neg h, if_neg h]

theorem canMove_block {r : Ret} (h : canMove g r = true) : ∃ b, r.pos = .block b ∧ ∀ o ∈ r.ops, (g.phi o).isSome = true ∨ g.blk o ≠ b := by
  unfold canMove at h
  rcases hp : r.pos with b | ⟨b, i⟩
  · rw [hp] at h
    dsimp only at h
    rw [Bool.and_eq_true, Bool.and_eq_true] at h
    refine ⟨b, rfl, fun o ho => ?_⟩
    have := List.all_eq_true.1 h.1.1 o ho
    rw [Bool.or_eq_true] at this
    exact this.imp id of_decide_eq_true
  · rw [hp] at h; cases h

theorem place_mem (s : List Ret × List Ret) (r x : Ret) : x ∈ (place g s r).1 ++ (place g s r).2 ↔ x = r ∨ x ∈ s.1 ++ s.2 := by
  unfold place
  by_cases h : canMove g r = true
  · rw [if_pos h]
    simp only [List.mem_append, List.mem_cons]
    exact or_assoc
  · rw [if_neg h]
    simp only [List.mem_append, List.mem_cons]
    exact or_left_comm

theorem place_can (s : List Ret × List Ret) (r : Ret) (hs : ∀ x ∈ s.1, canMove g x = true) : ∀ x ∈ (place g s r).1, canMove g x = true := by
  unfold place
  by_cases h : canMove g r = true
  · rw [if_pos h]
    intro x hx
    rcases List.mem_cons.1 hx with e | e
    · rw [e]; exact h
    · exact hs x e
  · rw [if_neg h]; exact hs

theorem expand_spec (b : Nat) (ops : List Nat) : ∀ (es : List (Option (Nat × Bool))) (i : Nat) (s : List Ret × List Ret), (∀ x ∈ s.1, canMove g x = true) →
    (∀ x ∈ (expand g b ops es i s).1, canMove g x = true) ∧
    ∀ x, x ∈ (expand g b ops es i s).1 ++ (expand g b ops es i s).2 ↔ (∃ k e, es[k]? = some e ∧ moved g b (i + k) ops e = some x) ∨ x ∈ s.1 ++ s.2 := by
  intro es
  induction es with
  | nil =>
    intro i s hs
    exact ⟨hs, fun x => ⟨fun h => .inr h, fun h => h.elim (fun ⟨k, e, h, _⟩ => by cases h) id⟩⟩
  | cons e es ih =>
    intro i s hs
    rw [expand]
    have tail : ∀ x, (∃ k e', (e :: es)[k]? = some e' ∧ moved g b (i + k) ops e' = some x) ↔
        moved g b i ops e = some x ∨ ∃ k e', es[k]? = some e' ∧ moved g b (i + 1 + k) ops e' = some x := by
      intro x
      constructor
      · rintro ⟨k, e', h1, h2⟩
        rcases k with _ | k
        · cases h1; exact .inl h2
        · refine .inr ⟨k, e', h1, ?_⟩
          rw [← h2]; congr 1; omega
      · rintro (h | ⟨k, e', h1, h2⟩)
        · exact ⟨0, e, rfl, h⟩
        · refine ⟨k + 1, e', h1, ?_⟩
          rw [← h2]; congr 1; omega
    rcases hm : moved g b i ops e with _ | r
    · obtain ⟨h1, h2⟩ := ih (i + 1) s hs
      refine ⟨h1, fun x => ?_⟩
      rw [h2 x, tail x, hm]
      exact or_congr_left ⟨.inr, fun h => h.elim (fun h => by cases h) id⟩
    · obtain ⟨h1, h2⟩ := ih (i + 1) (place g s r) (place_can s r hs)
      refine ⟨h1, fun x => ?_⟩
      rw [h2 x, tail x, hm, place_mem, Option.some.injEq]
      constructor
      · rintro (h | h | h)
        · exact .inl (.inr h)
        · exact .inl (.inl h.symm)
        · exact .inr h
      · rintro ((h | h) | h)
        · exact .inr (.inl h.symm)
        · exact .inl h
        · exact .inr (.inr h)

/-- one Return moved up -/
theorem expand_same (hb : IsBody g body) (h0 : g.preds 0 = []) {old : List Ret} {r : Ret} {b : Nat} (hr : canMove g r = true) (hpos : r.pos = .block b) {l fin : List Ret}
    (hl : ∀ x ∈ l, canMove g x = true) (h : SameReturns g body σ old ((r :: l) ++ fin)) :
    SameReturns g body σ old ((expand g b r.ops (g.preds b) 0 (l, fin)).1 ++ (expand g b r.ops (g.preds b) 0 (l, fin)).2) := by
  obtain ⟨_, hmem⟩ := expand_spec (g := g) b r.ops (g.preds b) 0 (l, fin) hl
  obtain ⟨b', hb', hops⟩ := canMove_block hr
  rw [hpos] at hb'
  cases hb'
  have hval : ∀ (i : Nat) (π : Path), (r.ops.map (operand g b i)).map (eval g body σ π) = r.ops.map (eval g body σ ((b, i) :: π)) := by
    intro i π
    rw [List.map_map]
    exact List.map_congr_left fun o ho => operand_value hb π (hops o ho)
  constructor
  · intro π hπ r0 hr0 hp0
    obtain ⟨π', r', hr', hv', hf', hval'⟩ := h.kept π hπ r0 hr0 hp0
    rw [List.cons_append] at hr'
    rcases List.mem_cons.1 hr' with e | e
    · subst e
      rw [hpos] at hf'
      -- the path ends in the block of the Return
      have hend : endOf π' = b := by
        cases hf' with
        | here => rfl
        | jmp _ _ => rfl
      rcases π' with _ | ⟨⟨c, i⟩, ρ⟩
      · have hend : 0 = b := hend
        subst hend
        unfold canMove at hr
        rw [hpos] at hr
        dsimp only at hr
        rw [h0] at hr
        simp at hr
      · have hend : c = b := hend
        subst hend
        obtain ⟨⟨j, hj⟩, hvρ⟩ := hv'
        refine ⟨ρ, ⟨if j then .block (endOf ρ) else .edge c i, r'.ops.map (operand g c i)⟩, (hmem _).2 (.inl ⟨i, _, hj, ?_⟩), hvρ, ?_, ?_⟩
        · rw [Nat.zero_add]; rfl
        · cases j with
          | false => exact .edge hf'
          | true => exact .jmp hj hf'
        · rw [← hval']; exact hval i ρ
    · exact ⟨π', r', (hmem r').2 (.inr e), hv', hf', hval'⟩
  · intro π' hπ' r' hr' ha
    rcases (hmem r').1 hr' with ⟨i, e, he, hm⟩ | hin
    · rw [Nat.zero_add] at hm
      rcases e with _ | ⟨src, j⟩
      · cases hm
      · cases hm
        have hv : Valid g ((b, i) :: π') := by
          cases j with
          | false => exact ha
          | true =>
            have ha : endOf π' = src := ha
            subst ha
            exact ⟨⟨true, he⟩, hπ'⟩
        obtain ⟨π, r0, h1, h2, h3, h4, h5⟩ := h.noNew ((b, i) :: π') hv r List.mem_cons_self (by rw [hpos]; rfl)
        rw [hpos] at h3
        refine ⟨π, r0, h1, h2, ?_, h4, (hval i π').trans h5⟩
        cases j with
        | false => exact .edge h3
        | true =>
          have ha : endOf π' = src := ha
          subst ha
          exact .jmp he h3
    · exact h.noNew π' hπ' r' (List.mem_cons_of_mem _ hin) ha

theorem loop_same (hb : IsBody g body) (h0 : g.preds 0 = []) {old : List Ret} : ∀ (fuel : Nat) (s : List Ret × List Ret) (new : List Ret), (∀ x ∈ s.1, canMove g x = true) →
    SameReturns g body σ old (s.1 ++ s.2) → loop g fuel s = some new → SameReturns g body σ old new := by
  intro fuel
  induction fuel with
  | zero =>
    intro s new _ hs h
    rcases s with ⟨l, fin⟩
    rcases l with _ | ⟨r, l⟩
    · cases h; exact hs
    · cases h
  | succ fuel ih =>
    intro s new hc hs h
    rcases s with ⟨l, fin⟩
    rcases l with _ | ⟨r, l⟩
    · cases h; exact hs
    · rw [loop] at h
      have hr := hc r List.mem_cons_self
      obtain ⟨b, hpos, _⟩ := canMove_block hr
      rw [hpos] at h
      dsimp only at h
      have hl : ∀ x ∈ l, canMove g x = true := fun x hx => hc x (List.mem_cons_of_mem _ hx)
      exact ih _ new (expand_spec b r.ops (g.preds b) 0 (l, fin) hl).1 (expand_same hb h0 hr hpos hl hs) h

theorem same_refl (rets : List Ret) (hpos : ∀ r ∈ rets, ∃ b, r.pos = .block b) (new : List Ret) (hm : ∀ x, x ∈ new ↔ x ∈ rets) : SameReturns g body σ rets new := by
  constructor
  · intro π hπ r hr hp
    exact ⟨π, r, (hm r).2 hr, hπ, by rw [hp]; exact .here π, rfl⟩
  · intro π hπ r hr ha
    obtain ⟨b, hb⟩ := hpos r ((hm r).1 hr)
    rw [hb] at ha
    have ha : endOf π = b := ha
    subst ha
    exact ⟨π, r, (hm r).1 hr, hπ, by rw [hb]; exact .here π, hb, rfl⟩

/-- **Many Returns return the same**: on every path of the graph the new Returns return what the old ones do. -/
theorem nReturns_same (g : Graph) (body : Nat → (Nat → V) → Nat → V) (σ : Nat → V) (hb : IsBody g body) (h0 : g.preds 0 = []) (rets : List Ret)
    (hpos : ∀ r ∈ rets, ∃ b, r.pos = .block b) (fuel : Nat) (new : List Ret) (h : nReturns g fuel rets = some new) : SameReturns g body σ rets new := by
  have key : ∀ (l : List Ret) (s : List Ret × List Ret), (∀ x ∈ s.1, canMove g x = true) →
      (∀ x ∈ (l.foldl (place g) s).1, canMove g x = true) ∧ ∀ x, x ∈ (l.foldl (place g) s).1 ++ (l.foldl (place g) s).2 ↔ x ∈ l ∨ x ∈ s.1 ++ s.2 := by
    intro l
    induction l with
    | nil => intro s hs; exact ⟨hs, fun x => ⟨.inr, fun h => h.elim (fun h => absurd h List.not_mem_nil) id⟩⟩
    | cons r l ih =>
      intro s hs
      obtain ⟨h1, h2⟩ := ih (place g s r) (place_can s r hs)
      refine ⟨h1, fun x => ?_⟩
      rw [List.foldl_cons, h2 x, place_mem, List.mem_cons]
      exact or_left_comm.trans or_assoc.symm
  obtain ⟨k1, k2⟩ := key rets ([], []) (fun x hx => absurd hx List.not_mem_nil)
  unfold nReturns at h
  dsimp only at h
  split at h
  · cases h
    exact same_refl rets hpos _ fun x => Iff.rfl
  · exact loop_same hb h0 fuel _ new k1 (same_refl rets hpos _ fun x => (k2 x).trans ⟨fun h => h.elim id (fun h => absurd h List.not_mem_nil), .inl⟩) h

/-- a Return is moved as far as possible: none of the new ones can be moved -/
theorem loop_done : ∀ (fuel : Nat) (s : List Ret × List Ret) (new : List Ret), (∀ x ∈ s.2, canMove g x = false) → loop g fuel s = some new → ∀ x ∈ new, canMove g x = false := by
  have hp : ∀ (s : List Ret × List Ret) (r : Ret), (∀ x ∈ s.2, canMove g x = false) → ∀ x ∈ (place g s r).2, canMove g x = false := by
    intro s r hs
    unfold place
    by_cases h : canMove g r = true
    · rw [if_pos h]; exact hs
    · rw [if_neg h]
      intro x hx
      rcases List.mem_cons.1 hx with e | e
      · rw [e]; exact Bool.not_eq_true _ ▸ h
      · exact hs x e
  have he : ∀ (b : Nat) (ops : List Nat) (es : List (Option (Nat × Bool))) (i : Nat) (s : List Ret × List Ret), (∀ x ∈ s.2, canMove g x = false) →
      ∀ x ∈ (expand g b ops es i s).2, canMove g x = false := by
    intro b ops es
    induction es with
    | nil => intro i s hs; exact hs
    | cons e es ih =>
      intro i s hs
      rw [expand]
      apply ih
      rcases moved g b i ops e with _ | r
      · exact hs
      · exact hp s r hs
  intro fuel
  induction fuel with
  | zero =>
    intro s new hs h
    rcases s with ⟨_ | ⟨r, l⟩, fin⟩
    · cases h; exact hs
    · cases h
  | succ fuel ih =>
    intro s new hs h
    rcases s with ⟨_ | ⟨r, l⟩, fin⟩
    · cases h; exact hs
    · rw [loop] at h
      rcases hpos : r.pos with b | ⟨b, i⟩
      · rw [hpos] at h
        exact ih _ new (he b r.ops (g.preds b) 0 (l, fin) hs) h
      · rw [hpos] at h; cases h

/-- how much there is to do for a Return, if blocks have at most `w` predecessors -/
def weight (w : Nat) (h : Nat → Nat) (r : Ret) : Nat :=
  match r.pos with
  | .block b => (w + 1) ^ (h b + 1)
  | .edge _ _ => 0

theorem place_weight (w : Nat) (h : Nat → Nat) (s : List Ret × List Ret) (r : Ret) : ((place g s r).1.map (weight w h)).sum ≤ (s.1.map (weight w h)).sum + weight w h r := by
  unfold place
  by_cases hc : canMove g r = true
  · rw [if_pos hc, List.map_cons, List.sum_cons]; omega
  · rw [if_neg hc]; dsimp only; omega

theorem expand_weight (w : Nat) (h : Nat → Nat) (b : Nat) (ops : List Nat) : ∀ (es : List (Option (Nat × Bool))) (i : Nat) (s : List Ret × List Ret),
    (∀ src, some (src, true) ∈ es → h src < h b) →
    ((expand g b ops es i s).1.map (weight w h)).sum ≤ (s.1.map (weight w h)).sum + es.length * (w + 1) ^ h b := by
  intro es
  induction es with
  | nil => intro i s _; exact Nat.le_add_right _ _
  | cons e es ih =>
    intro i s hs
    rw [expand]
    refine Nat.le_trans (ih _ _ fun src hsrc => hs src (List.mem_cons_of_mem _ hsrc)) ?_
    rw [List.length_cons, Nat.succ_mul]
    rcases hm : moved g b i ops e with _ | r
    · dsimp only; omega
    · dsimp only
      have h1 := place_weight (g := g) w h s r
      have h2 : weight w h r ≤ (w + 1) ^ h b := by
        rcases e with _ | ⟨src, j⟩
        · cases hm
        · cases hm
          cases j with
          | false => exact Nat.zero_le _
          | true => exact Nat.pow_le_pow_right (by omega) (hs src List.mem_cons_self)
      omega

theorem loop_some (w : Nat) (h : Nat → Nat) (hw : ∀ b, (g.preds b).length ≤ w) (hh : ∀ b src, some (src, true) ∈ g.preds b → h src < h b) : ∀ (fuel : Nat) (s : List Ret × List Ret),
    (∀ x ∈ s.1, canMove g x = true) → (s.1.map (weight w h)).sum ≤ fuel → ∃ new, loop g fuel s = some new := by
  intro fuel
  induction fuel with
  | zero =>
    intro s hc hs
    rcases s with ⟨_ | ⟨r, l⟩, fin⟩
    · exact ⟨fin, rfl⟩
    · obtain ⟨b, hpos, _⟩ := canMove_block (hc r List.mem_cons_self)
      dsimp only at hs
      rw [List.map_cons, List.sum_cons, weight, hpos] at hs
      have : 0 < (w + 1) ^ (h b + 1) := Nat.pow_pos (by omega)
      dsimp only at hs
      omega
  | succ fuel ih =>
    intro s hc hs
    rcases s with ⟨_ | ⟨r, l⟩, fin⟩
    · exact ⟨fin, rfl⟩
    · obtain ⟨b, hpos, _⟩ := canMove_block (hc r List.mem_cons_self)
      have hl : ∀ x ∈ l, canMove g x = true := fun x hx => hc x (List.mem_cons_of_mem _ hx)
      rw [loop, hpos]
      dsimp only
      refine ih _ (expand_spec b r.ops (g.preds b) 0 (l, fin) hl).1 ?_
      have h1 := expand_weight (g := g) w h b r.ops (g.preds b) 0 (l, fin) (hh b)
      dsimp only at hs
      rw [List.map_cons, List.sum_cons, weight, hpos] at hs
      dsimp only at hs h1
      have h2 : (g.preds b).length * (w + 1) ^ h b ≤ w * (w + 1) ^ h b := Nat.mul_le_mul_right _ (hw b)
      have h3 : (w + 1) ^ (h b + 1) = w * (w + 1) ^ h b + (w + 1) ^ h b := by rw [Nat.pow_succ, Nat.mul_comm, Nat.succ_mul]
      have h4 : 0 < (w + 1) ^ h b := Nat.pow_pos (by omega)
      omega

/-- **It ends**, if there is no cycle of Jmps: `h` grows along each of them. -/
theorem nReturns_ends (g : Graph) (w : Nat) (h : Nat → Nat) (hw : ∀ b, (g.preds b).length ≤ w) (hh : ∀ b src, some (src, true) ∈ g.preds b → h src < h b) (rets : List Ret) :
    ∃ fuel new, nReturns g fuel rets = some new := by
  have key : ∀ (l : List Ret) (s : List Ret × List Ret), (∀ x ∈ s.1, canMove g x = true) → ∀ x ∈ (l.foldl (place g) s).1, canMove g x = true := by
    intro l
    induction l with
    | nil => intro s hs; exact hs
    | cons r l ih => intro s hs; exact ih _ (place_can s r hs)
  obtain ⟨new, hn⟩ := loop_some w h hw hh _ (rets.foldl (place g) ([], [])) (key rets _ fun x hx => absurd hx List.not_mem_nil) (Nat.le_refl _)
  refine ⟨((rets.foldl (place g) ([], [])).1.map (weight w h)).sum, ?_⟩
  unfold nReturns
  dsimp only
  split
  · exact ⟨_, rfl⟩
  · exact ⟨new, hn⟩

theorem saveOne_spec (n j : Nat) (ops : Nat → Nat) (hn : 0 < n) (a : Nat → Nat) : ∀ m, (∀ k, k < m → saveOne n j ops m a (j + k * n) = ops k) ∧
    ∀ x, (∀ k, k < m → x ≠ j + k * n) → saveOne n j ops m a x = a x := by
  intro m
  induction m with
  | zero => exact ⟨fun k hk => absurd hk (Nat.not_lt_zero _), fun _ _ => rfl⟩
  | succ m ih =>
    constructor
    · intro k hk
      unfold saveOne upd
      by_cases he : k = m
      · rw [he, if_pos rfl]
      · have hne : j + k * n ≠ j + m * n := fun h => he (Nat.eq_of_mul_eq_mul_right hn (Nat.add_left_cancel h))
        rw [if_neg hne]
        exact ih.1 k (by omega)
    · intro x hx
      unfold saveOne upd
      rw [if_neg (hx m (by omega))]
      exact ih.2 x fun k hk => hx k (by omega)

/-- **One Return returns the same**: the Phi of value `k` has, on the edge from the block of the Return `j`, the operand `k` of that Return. -/
theorem onePhi_spec (n m : Nat) (ops : Nat → Nat → Nat) (j k : Nat) (hj : j < n) (hk : k < m) : onePhi n m ops k j = ops j k := by
  have key : ∀ t, t ≤ n → j < t → save n m ops t (j + k * n) = ops j k := by
    intro t
    induction t with
    | zero => intro _ h; exact absurd h (Nat.not_lt_zero _)
    | succ t ih =>
      intro ht hlt
      unfold save
      by_cases he : j = t
      · rw [← he]
        exact (saveOne_spec n j (ops j) (by omega) _ m).1 k hk
      · rw [(saveOne_spec n t (ops t) (by omega) _ m).2]
        · exact ih (by omega) (by omega)
        · intro k' _ h
          have h1 : (j + k * n) % n = j := by rw [Nat.add_mul_mod_self_right, Nat.mod_eq_of_lt hj]
          have h2 : (t + k' * n) % n = t := by rw [Nat.add_mul_mod_self_right, Nat.mod_eq_of_lt (by omega)]
          rw [h, h2] at h1
          exact he h1.symm
  unfold onePhi
  rw [Nat.add_comm]
  exact key n (Nat.le_refl _) hj

theorem canMove_iff (r : Ret) : canMove g r = true ↔ Movable g r := by
  unfold canMove Movable
  rcases hp : r.pos with b | ⟨b, i⟩
  · dsimp only
    simp only [Bool.and_eq_true, List.all_eq_true, Bool.or_eq_true, decide_eq_true_eq, Bool.not_eq_true', Pos.block.injEq, exists_eq_left',
      Option.isSome_iff_ne_none]
    exact and_assoc
  · exact ⟨(fun h => nomatch h), fun ⟨_, h, _⟩ => nomatch h⟩

/-- **Nothing is left to do**: none of the Returns can be moved. -/
theorem nReturns_done (g : Graph) (fuel : Nat) (rets new : List Ret) (h : nReturns g fuel rets = some new) : ∀ r ∈ new, ¬ Movable g r := by
  have key : ∀ (l : List Ret) (s : List Ret × List Ret), (∀ x ∈ s.2, canMove g x = false) →
      (∀ x ∈ (l.foldl (place g) s).2, canMove g x = false) ∧ ((l.foldl (place g) s).1 = [] → s.1 = [] ∧ ∀ x ∈ l, canMove g x = false) := by
    intro l
    induction l with
    | nil => intro s hs; exact ⟨hs, fun h => ⟨h, fun x hx => absurd hx List.not_mem_nil⟩⟩
    | cons r l ih =>
      intro s hs
      rw [List.foldl_cons]
      by_cases hc : canMove g r = true
      · have e : place g s r = (r :: s.1, s.2) := if_pos hc
        rw [e]
        obtain ⟨h1, h2⟩ := ih (r :: s.1, s.2) hs
        exact ⟨h1, fun h => absurd (h2 h).1 (List.cons_ne_nil _ _)⟩
      · have e : place g s r = (s.1, r :: s.2) := if_neg hc
        have hc' : canMove g r = false := by rw [← Bool.not_eq_true]; exact hc
        rw [e]
        obtain ⟨h1, h2⟩ := ih (s.1, r :: s.2) fun x hx => (List.mem_cons.1 hx).elim (fun q => by rw [q]; exact hc') (hs x)
        exact ⟨h1, fun h => ⟨(h2 h).1, fun x hx => (List.mem_cons.1 hx).elim (fun q => by rw [q]; exact hc') ((h2 h).2 x)⟩⟩
  obtain ⟨h1, h2⟩ := key rets ([], []) fun x hx => absurd hx List.not_mem_nil
  intro r hr hm
  have hc := (canMove_iff r).2 hm
  unfold nReturns at h
  dsimp only at h
  rcases hs : (rets.foldl (place g) ([], [])).1 with _ | ⟨a, l⟩
  · rw [hs] at h
    cases h
    rw [(h2 hs).2 r hr] at hc
    cases hc
  · rw [hs] at h
    rw [loop_done fuel _ new h1 h r hr] at hc
    cases hc

/-- a block 3 with a Return of the Phi 10: entered from 1 (a Jmp) and from 2 (a Cond); node 5 is in the start block -/
def sample : Graph where
  preds b := [[], [some (0, false)], [some (0, false)], [some (1, true), some (2, false), none]][b]?.getD []
  blk n := if n = 10 then 3 else if n = 11 then 1 else if n = 12 then 2 else 0
  phi n := if n = 10 then some fun i => 11 + i else none
  label _ := false

example : (nReturns sample 3 [⟨.block 3, [5, 10]⟩]).map (fun l => l.map fun r => r.ops) = some [[5, 12], [5, 11]] := by decide +kernel
example : (nReturns sample 3 [⟨.block 3, [12, 10]⟩]).map (fun l => l.length) = some 2 := by decide +kernel
example : Movable sample ⟨.block 3, [5, 10]⟩ := (canMove_iff _).1 (by decide +kernel)
example : IsBody sample (fun b (σ : Nat → Nat) n => if b = 1 ∧ n = 11 then 7 else if b = 2 ∧ n = 12 then 8 else σ n) := by
  intro b σ n h
  dsimp only [sample] at h
  by_cases h1 : b = 1 ∧ n = 11
  · obtain ⟨rfl, rfl⟩ := h1; simp at h
  · by_cases h2 : b = 2 ∧ n = 12
    · obtain ⟨rfl, rfl⟩ := h2; simp at h
    · dsimp only; rw [if_neg h1, if_neg h2]
example : ∀ b src, some (src, true) ∈ sample.preds b → src < b := by
  intro b src h
  rcases b with _ | _ | _ | _ | b
  all_goals simp [sample] at h
  subst h
  decide
example : Valid sample [(3, 1), (2, 0)] := ⟨⟨false, rfl⟩, ⟨false, rfl⟩, trivial⟩
example : onePhi 2 3 (fun j k => 10 * j + k) 2 1 = 12 := by decide +kernel

end Verif.Props.Returns
