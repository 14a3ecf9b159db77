import Verif.Model.BeFlags
/-! # Lemmas about flags in the schedule -/
namespace Verif.Lemmas.BeFlags
open Verif.Spec.FlagCode Verif.Model.BeFlags

variable {V M C : Type}

def idsOf (l : List (Node C)) : List Nat := l.map (·.id)

/-- What a block and the functions of the backend have to be like.  `prod` are the nodes whose flags may
be tested. -/
structure Ok (sem : Sem V M C) (val : Nat → V) (prod : Nat → Bool) (env : Env C) (l : List (Node C)) :
    Prop where
  nodup : (idsOf l).Nodup
  /-- producers write the flags, and neither store nor test flags nor stand at the start -/
  prodOk : ∀ x ∈ l, prod x.id = true →
    x.modifies = true ∧ x.stores = false ∧ x.flag = none ∧ x.first = false
  keepOk : ∀ x ∈ l, x.keep = true → x.modifies = false ∧ x.flag = none
  outerOk : ∀ F, prod F = true → F ∉ idsOf l →
    (env.outer F).id = F ∧ (env.outer F).modifies = true ∧ (env.outer F).stores = false ∧
    (env.outer F).flag = none
  flagOk : ∀ x ∈ l, ∀ G, x.flag = some G → prod G = true ∧ x.first = false
  /-- no node tests the flags of a later one -/
  order : l.Pairwise fun x y => x.flag ≠ some y.id
  /-- a store after a producer that reads memory depends on it -/
  memOrder : l.Pairwise fun x y => prod x.id = true → x.reads = true → y.stores = true → x.id ∈ y.uses
  const : ∀ x ∈ l, x.reads = false → ∀ m m', sem.flags x.id m = sem.flags x.id m'
  constOuter : ∀ F, prod F = true → F ∉ idsOf l → (env.outer F).reads = false →
    ∀ m m', sem.flags F m = sem.flags F m'
  /-- memory operands are loaded before a node is copied, or there are none -/
  mode : env.turnBack = true ∨ ∀ F, prod F = true →
    (∀ x ∈ l, x.id = F → x.reads = false) ∧ (F ∉ idsOf l → (env.outer F).reads = false)
  replOk : ∀ F A c, env.repl F A = true → sem.test (env.inv c) (val A) = sem.test c (val F)

section
variable (sem : Sem V M C) (val : Nat → V) (prod : Nat → Bool) (env : Env C) (m0 : M) (l : List (Node C))

/-- the memory behind the nodes in front -/
def memOf : Todo C → M
  | [] => m0
  | (n, k) :: r => if k = .stub then memOf r else sem.after n (memOf r)

/-- what should happen in front -/
def wt : Todo C → List (Event M)
  | [] => []
  | (n, k) :: r => wt r ++
    (if k = .stub ∨ prod n.id = true then []
     else [⟨n.id, n.flag.map fun f => sem.test n.cond (val f), memOf sem m0 r⟩])

def Vals : Todo C → Prop
  | [] => True
  | (n, _) :: r => (n.modifies = true → val n.id = sem.flags n.id (memOf sem m0 r)) ∧ Vals r

/-- the machine behind the nodes in front -/
def Good (todo : Todo C) (s : Machine V M) : Prop :=
  s.mem = memOf sem m0 todo ∧
  ∀ F, prod F = true → (F ∉ idsOf l ∨ ∃ p ∈ todo, p.1.id = F ∧ p.2 ≠ .plain) →
    val F = sem.flags F (s.loaded F)

def HasSrc (todo : Todo C) (G : Nat) : Prop := G ∉ idsOf l ∨ ∃ q ∈ todo, q.1.id = G ∧ q.2 ≠ .stub

structure TInv (todo : Todo C) : Prop where
  sub : (todo.map (·.1)).Sublist l.reverse
  vals : Vals sem val m0 todo
  marks : ∀ p ∈ todo, p.2 ≠ .plain → prod p.1.id = true
  src : ∀ p ∈ todo, p.2 ≠ .stub → ∀ G, p.1.flag = some G → HasSrc l todo G

def P (todo : Todo C) (done : List (Item C)) (r : Option Nat) (E : List (Event M)) : Prop :=
  ∀ s, Good sem val prod m0 l todo s → (∀ F, r = some F → s.flags = val F) → trace sem prod s done = E
end

variable {sem : Sem V M C} {val : Nat → V} {prod : Nat → Bool} {env : Env C} {m0 : M} {l : List (Node C)}

/-- the nodes that test the flags from before -/
def inReads : List (Item C) → List Nat
  | [] => []
  | .load _ :: r => inReads r
  | .run n _ :: r => (if n.flag.isSome then [n.id] else []) ++ (if n.modifies then [] else inReads r)

def consIds : List (Item C) → List Nat
  | [] => []
  | .load _ :: r => consIds r
  | .run n _ :: r => (if n.flag.isSome then [n.id] else []) ++ consIds r

theorem inReads_sub (d : List (Item C)) : ∀ i ∈ inReads d, i ∈ consIds d := by
  induction d with
  | nil => simp [inReads]
  | cons x xs ih =>
    cases x with
    | load j => exact ih
    | run n t =>
      intro i hi
      simp only [inReads, consIds, List.mem_append] at hi ⊢
      rcases hi with hi | hi
      · exact .inl hi
      · split at hi
        · cases hi
        · exact .inr (ih i hi)

theorem consIds_mem {d : List (Item C)} {n : Node C} {t : Bool} (h : Item.run n t ∈ d)
    (hf : n.flag.isSome = true) : n.id ∈ consIds d := by
  induction d with
  | nil => cases h
  | cons y ys ih =>
    rcases List.mem_cons.mp h with e | h'
    · subst e
      simp [consIds, hf]
    · cases y with
      | load _ => exact ih h'
      | run _ _ => simp only [consIds, List.mem_append]; exact .inr (ih h')

/-! ### Changes of the nodes in front -/

theorem turn_memOf (F : Nat) (todo : Todo C) : memOf sem m0 (turn F todo) = memOf sem m0 todo := by
  induction todo with
  | nil => rfl
  | cons p r ih =>
    obtain ⟨n, k⟩ := p
    simp only [turn, List.map_cons] at ih ⊢
    by_cases h : n.id = F ∧ k = .plain ∧ n.reads = true
    · rw [if_pos h]
      simp only [memOf, ih]
      rw [if_neg (by simp), if_neg (by simp [h.2.1])]
    · rw [if_neg h]
      simp only [memOf, ih]

theorem turn_wt (F : Nat) (todo : Todo C) : wt sem val prod m0 (turn F todo) = wt sem val prod m0 todo := by
  induction todo with
  | nil => rfl
  | cons p r ih =>
    obtain ⟨n, k⟩ := p
    have hm := turn_memOf (sem := sem) (m0 := m0) F r
    simp only [turn, List.map_cons] at ih hm ⊢
    by_cases h : n.id = F ∧ k = .plain ∧ n.reads = true
    · rw [if_pos h]
      simp only [wt, ih, hm]
      simp [h.2.1]
    · rw [if_neg h]
      simp only [wt, ih, hm]

theorem turn_vals (F : Nat) (todo : Todo C) (h : Vals sem val m0 todo) : Vals sem val m0 (turn F todo) := by
  induction todo with
  | nil => trivial
  | cons p r ih =>
    obtain ⟨n, k⟩ := p
    have hm := turn_memOf (sem := sem) (m0 := m0) F r
    have ih := ih h.2
    simp only [turn, List.map_cons] at ih hm ⊢
    by_cases h' : n.id = F ∧ k = .plain ∧ n.reads = true
    · rw [if_pos h']
      simp only [Vals, hm]
      exact ⟨h.1, ih⟩
    · rw [if_neg h']
      simp only [Vals, hm]
      exact ⟨h.1, ih⟩

theorem turn_fst (F : Nat) (todo : Todo C) : (turn F todo).map (·.1) = todo.map (·.1) := by
  simp only [turn, List.map_map]
  apply List.map_congr_left
  intro p _
  simp only [Function.comp]
  split <;> rfl

theorem takeOut_memOf (F : Nat) (todo : Todo C) (h : ∀ p ∈ todo, p.1.id = F → p.1.stores = false) :
    memOf sem m0 (takeOut F todo) = memOf sem m0 todo := by
  induction todo with
  | nil => rfl
  | cons p r ih =>
    obtain ⟨n, k⟩ := p
    have ih := ih (fun p hp => h p (List.mem_cons_of_mem _ hp))
    simp only [takeOut]
    split
    · rename_i hF
      have hs := h (n, k) (by simp) hF.1
      simp only at hs
      split
      · simp [memOf, Sem.after, hs, hF.2]
      · simp [memOf, Sem.after, hs]
    · simp only [memOf, ih]

theorem takeOut_wt (F : Nat) (todo : Todo C) (h : ∀ p ∈ todo, p.1.id = F → p.1.stores = false)
    (hF : prod F = true) : wt sem val prod m0 (takeOut F todo) = wt sem val prod m0 todo := by
  induction todo with
  | nil => rfl
  | cons p r ih =>
    obtain ⟨n, k⟩ := p
    have h' := fun p hp => h p (List.mem_cons_of_mem (n, k) hp)
    have ih := ih h'
    simp only [takeOut]
    split
    · rename_i hn
      have hp : prod n.id = true := by rw [hn.1]; exact hF
      split
      · simp [wt, hp]
      · simp [wt, hp]
    · simp only [wt, ih, takeOut_memOf F r h']

theorem takeOut_vals (F : Nat) (todo : Todo C) (h : ∀ p ∈ todo, p.1.id = F → p.1.stores = false)
    (hv : Vals sem val m0 todo) : Vals sem val m0 (takeOut F todo) := by
  induction todo with
  | nil => trivial
  | cons p r ih =>
    obtain ⟨n, k⟩ := p
    have h' := fun p hp => h p (List.mem_cons_of_mem (n, k) hp)
    have ih := ih h' hv.2
    simp only [takeOut]
    split
    · split
      · exact hv
      · exact hv.2
    · simp only [Vals, takeOut_memOf F r h']
      exact ⟨hv.1, ih⟩

theorem takeOut_sub (F : Nat) (todo : Todo C) :
    ((takeOut F todo).map (·.1)).Sublist (todo.map (·.1)) := by
  induction todo with
  | nil => exact List.Sublist.refl _
  | cons p r ih =>
    obtain ⟨n, k⟩ := p
    simp only [takeOut]
    split
    · split
      · exact List.Sublist.refl _
      · exact List.sublist_cons_self _ _
    · exact ih.cons_cons _

theorem takeOut_mem {F : Nat} {todo : Todo C} {p : Node C × Mark} (h : p ∈ takeOut F todo) :
    p ∈ todo ∨ (p.2 = .stub ∧ p.1.id = F ∧ (p.1, .turned) ∈ todo) := by
  induction todo with
  | nil => cases h
  | cons q r ih =>
    obtain ⟨n, k⟩ := q
    simp only [takeOut] at h
    split at h
    · rename_i hn
      split at h
      · rename_i hk
        subst hk
        rcases List.mem_cons.mp h with rfl | h
        · exact .inr ⟨rfl, hn.1, by simp⟩
        · exact .inl (by simp [h])
      · exact .inl (by simp [h])
    · rcases List.mem_cons.mp h with rfl | h
      · exact .inl (by simp)
      · rcases ih h with h | ⟨h1, h2, h3⟩
        · exact .inl (by simp [h])
        · exact .inr ⟨h1, h2, by simp [h3]⟩

theorem takeOut_keeps {F : Nat} {todo : Todo C} {p : Node C × Mark} (h : p ∈ todo) (hF : p.1.id ≠ F) :
    p ∈ takeOut F todo := by
  induction todo with
  | nil => cases h
  | cons q r ih =>
    obtain ⟨n, k⟩ := q
    simp only [takeOut]
    split
    · rename_i hn
      rcases List.mem_cons.mp h with rfl | h
      · exact absurd hn.1 hF
      · split
        · simp [h]
        · exact h
    · rcases List.mem_cons.mp h with rfl | h
      · simp
      · simp [ih h]

theorem takeOut_marked {F : Nat} {todo : Todo C} {p : Node C × Mark} (h : p ∈ todo) (hp : p.2 ≠ .plain) :
    ∃ q ∈ takeOut F todo, q.1.id = p.1.id ∧ q.2 ≠ .plain := by
  induction todo with
  | nil => cases h
  | cons q r ih =>
    obtain ⟨n, k⟩ := q
    simp only [takeOut]
    split
    · split
      · rcases List.mem_cons.mp h with rfl | h
        · exact ⟨(n, .stub), by simp, rfl, by simp⟩
        · exact ⟨p, by simp [h], rfl, hp⟩
      · rename_i hn hk
        rcases List.mem_cons.mp h with rfl | h
        · exfalso
          cases k with
          | plain => exact hp rfl
          | turned => exact hk rfl
          | stub => exact hn.2 rfl
        · exact ⟨p, h, rfl, hp⟩
    · rcases List.mem_cons.mp h with rfl | h
      · exact ⟨_, by simp, rfl, hp⟩
      · obtain ⟨q, hq, h1, h2⟩ := ih h
        exact ⟨q, by simp [hq], h1, h2⟩

theorem turn_mem {F : Nat} {todo : Todo C} {p : Node C × Mark} (h : p ∈ turn F todo) :
    ∃ q ∈ todo, q.1 = p.1 ∧ (p = q ∨ (p.1.id = F ∧ p.2 = .turned ∧ q.2 = .plain)) := by
  unfold turn at h
  obtain ⟨q, hq, e⟩ := List.mem_map.mp h
  refine ⟨q, hq, ?_⟩
  split at e
  · rename_i hh
    rw [← e]
    exact ⟨rfl, .inr ⟨hh.1, rfl, hh.2.1⟩⟩
  · exact ⟨by rw [e], .inl e.symm⟩

theorem turn_keeps {F : Nat} {todo : Todo C} {p : Node C × Mark} (h : p ∈ todo) :
    ∃ q ∈ turn F todo, q.1 = p.1 ∧ (p.2 ≠ .plain → q.2 = p.2) ∧ (p.2 ≠ .stub → q.2 ≠ .stub) ∧
      (p.1.id = F → p.1.reads = true → q.2 ≠ .plain) := by
  unfold turn
  refine ⟨_, List.mem_map_of_mem h, ?_⟩
  split
  · rename_i hh
    exact ⟨rfl, fun hp => absurd hh.2.1 hp, fun _ => by simp, fun _ _ => by simp⟩
  · rename_i hh
    refine ⟨rfl, fun _ => rfl, fun h => h, fun h1 h2 h3 => hh ⟨h1, h3, h2⟩⟩

theorem memOf_nostore {a b : Todo C} (h : ∀ p ∈ a, p.1.stores = false) :
    memOf sem m0 (a ++ b) = memOf sem m0 b := by
  induction a with
  | nil => rfl
  | cons p r ih =>
    obtain ⟨n, k⟩ := p
    have := h (n, k) (by simp)
    simp only at this
    simp only [List.cons_append, memOf, ih (fun p hp => h p (by simp [hp])), Sem.after, this]
    split <;> rfl

theorem vals_mem {a b : Todo C} {n : Node C} {k : Mark} (h : Vals sem val m0 (a ++ (n, k) :: b))
    (hm : n.modifies = true) : val n.id = sem.flags n.id (memOf sem m0 b) := by
  induction a with
  | nil => exact h.1 hm
  | cons p r ih => exact ih h.2

theorem takeOut_len (F : Nat) (todo : Todo C) : (takeOut F todo).length ≤ todo.length := by
  induction todo with
  | nil => exact Nat.le_refl _
  | cons q r ih =>
    obtain ⟨n, k⟩ := q
    simp only [takeOut]
    split
    · split <;> simp
    · simp only [List.length_cons]; omega

theorem lookup_some {F : Nat} {todo : Todo C} {n : Node C} {k : Mark} (h : lookup F todo = some (n, k)) :
    (n, k) ∈ todo ∧ n.id = F ∧ k ≠ .stub := by
  unfold lookup at h
  have h1 := List.mem_of_find?_eq_some h
  have h2 := List.find?_some h
  simp only [Bool.and_eq_true, beq_iff_eq, bne_iff_ne, ne_eq] at h2
  exact ⟨h1, h2.1, h2.2⟩

theorem lookup_none {F : Nat} {todo : Todo C} (h : lookup F todo = none) :
    ∀ q ∈ todo, q.1.id = F → q.2 = .stub := by
  unfold lookup at h
  rw [List.find?_eq_none] at h
  intro q hq hF
  have := h q hq
  simp only [Bool.and_eq_true, beq_iff_eq, bne_iff_ne, ne_eq, not_and, Classical.not_not] at this
  exact this hF

/-! ### The nodes of the block -/

theorem TInv.mem (ok : TInv sem val prod m0 l todo) {p : Node C × Mark} (hp : p ∈ todo) : p.1 ∈ l := by
  have := ok.sub.subset (List.mem_map_of_mem (f := (·.1)) hp)
  exact List.mem_reverse.mp this

theorem TInv.nodup {todo : Todo C} (ok : TInv sem val prod m0 l todo) (h : (idsOf l).Nodup) :
    (todo.map (·.1.id)).Nodup := by
  have h1 : (todo.map (·.1.id)) = (todo.map (·.1)).map (·.id) := by rw [List.map_map]; rfl
  rw [h1]
  have h2 : ((todo.map (·.1)).map (·.id)).Sublist (l.reverse.map (·.id)) := ok.sub.map _
  refine h2.nodup ?_
  rw [List.map_reverse]
  exact (List.reverse_perm _).nodup_iff.mpr h

/-! ### The code behind -/

theorem trace_invert (ok : Ok sem val prod env l) {F A : Nat} (hr : env.repl F A = true)
    (consumers : List Nat) (d : List (Item C)) (hn : (consIds d).Nodup)
    (hc : ∀ i ∈ consIds d, i ∈ consumers ↔ i ∈ inReads d)
    (s : Machine V M) :
    trace sem prod { s with flags := val A } (invert env.inv consumers d)
      = trace sem prod { s with flags := val F } d := by
  induction d generalizing s with
  | nil => rfl
  | cons x xs ih =>
    cases x with
    | load j =>
      simp only [consIds] at hn hc
      exact ih hn hc (exec sem s (.load j))
    | run n t =>
      simp only [consIds] at hn
      have hn' : (consIds xs).Nodup := (List.nodup_append.mp hn).2.1
      have hdis := (List.nodup_append.mp hn).2.2
      -- the node itself
      have hhead : invert env.inv consumers (.run n t :: xs)
          = .run (if n.flag.isSome ∧ n.id ∈ consumers then { n with cond := env.inv n.cond } else n) t
            :: invert env.inv consumers xs := by
        simp only [invert, List.map_cons]
        split <;> rfl
      rw [hhead]
      generalize hx : (if n.flag.isSome ∧ n.id ∈ consumers then { n with cond := env.inv n.cond } else n) = n'
      have hid : n'.id = n.id ∧ n'.flag = n.flag ∧ n'.modifies = n.modifies ∧ n'.stores = n.stores := by
        rw [← hx]; split <;> exact ⟨rfl, rfl, rfl, rfl⟩
      have hev : n'.flag.map (fun _ => sem.test n'.cond (val A))
          = n.flag.map (fun _ => sem.test n.cond (val F)) := by
        rw [hid.2.1]
        cases hfl : n.flag with
        | none => rfl
        | some G =>
          have : n.id ∈ consumers := by
            refine (hc n.id ?_).mpr ?_
            · simp [consIds, hfl]
            · simp [inReads, hfl]
          rw [if_pos ⟨by simp [hfl], this⟩] at hx
          rw [← hx]
          simp only [Option.map_some]
          rw [ok.replOk F A n.cond hr]
      simp only [trace]
      rw [hid.1, hev]
      congr 1
      cases hm : n.modifies with
      | true =>
        have hsame : invert env.inv consumers xs = xs := by
          unfold invert
          conv => rhs; rw [← List.map_id xs]
          apply List.map_congr_left
          intro i hi
          cases i with
          | load j => rfl
          | run q u =>
            simp only [id]
            rw [if_neg]
            rintro ⟨hfl, hq⟩
            have hqc := consIds_mem hi hfl
            have := (hc q.id (by simp only [consIds, List.mem_append]; exact .inr hqc)).mp hq
            simp only [inReads, hm, if_true, List.append_nil] at this
            exact hdis q.id this q.id hqc rfl
        rw [hsame]
        simp only [exec, hid.1, hid.2.2.1, hm, if_true, Sem.after, hid.2.2.2]
      | false =>
        have hc' : ∀ i ∈ consIds xs, i ∈ consumers ↔ i ∈ inReads xs := by
          intro i hi
          rw [hc i (by simp only [consIds, List.mem_append]; exact .inr hi)]
          simp only [inReads, hm, List.mem_append]
          constructor
          · rintro (h | h)
            · exact absurd rfl (hdis i h i hi)
            · simpa using h
          · intro h
            exact .inr (by simpa using h)
        have := ih hn' hc' (exec sem s (.run n t))
        simp only [exec, hm, hid.1, hid.2.2.1, Sem.after, hid.2.2.2] at this ⊢
        exact this

theorem invert_inReads (inv : C → C) (cs : List Nat) (d : List (Item C)) :
    inReads (invert inv cs d) = inReads d ∧ consIds (invert inv cs d) = consIds d := by
  induction d with
  | nil => exact ⟨rfl, rfl⟩
  | cons x xs ih =>
    obtain ⟨h1, h2⟩ := ih
    cases x with
    | load j => exact ⟨h1, h2⟩
    | run n t =>
      have hhead : invert inv cs (.run n t :: xs)
          = .run (if n.flag.isSome ∧ n.id ∈ cs then { n with cond := inv n.cond } else n) t :: invert inv cs xs := by
        simp only [invert, List.map_cons]
        split <;> rfl
      rw [hhead]
      simp only [inReads, consIds, h1, h2]
      constructor <;> split <;> rfl

/-- A node is put behind those in front. -/
theorem emit_ok (ok : Ok sem val prod env l) {node : Node C} {k : Mark} {todo : Todo C}
    (ti : TInv sem val prod m0 l ((node, k) :: todo)) (hk : k ≠ .stub) {done : List (Item C)}
    {r r' : Option Nat} {E : List (Event M)} (h : P sem val prod m0 l ((node, k) :: todo) done r E)
    (hf : ∀ G, node.flag = some G → r' = some G)
    (hr : r = none ∨ (node.modifies = true ∧ r = some node.id) ∨ (node.modifies = false ∧ r' = r)) :
    P sem val prod m0 l todo (emit node k done) r'
      ((if prod node.id = true then []
        else [⟨node.id, node.flag.map fun f => sem.test node.cond (val f), memOf sem m0 todo⟩]) ++ E) := by
  intro s hs hfl
  have hev : node.flag.map (fun _ => sem.test node.cond s.flags)
      = node.flag.map fun f => sem.test node.cond (val f) := by
    cases hn : node.flag with
    | none => rfl
    | some G => simp only [Option.map_some]; rw [hfl G (hf G hn)]
  have hmem : memOf sem m0 ((node, k) :: todo) = sem.after node (memOf sem m0 todo) := by
    simp only [memOf, if_neg hk]
  cases k with
  | stub => exact absurd rfl hk
  | plain =>
    simp only [emit, trace]
    rw [hev, hs.1]
    congr 1
    refine h _ ⟨?_, ?_⟩ ?_
    · rw [hmem, ← hs.1]; rfl
    · intro F hF hh
      refine hs.2 F hF ?_
      rcases hh with hh | ⟨p, hp, h1, h2⟩
      · exact .inl hh
      · rcases List.mem_cons.mp hp with rfl | hp
        · exact absurd rfl h2
        · exact .inr ⟨p, hp, h1, h2⟩
    · intro F hF
      rcases hr with rfl | ⟨hm, rfl⟩ | ⟨hm, rfl⟩
      · cases hF
      · cases hF
        simp only [exec, hm, if_true]
        rw [ti.vals.1 hm, hs.1]
        rfl
      · simp only [exec, hm]
        exact hfl F hF
  | turned =>
    have hp := ti.marks (node, .turned) (by simp) (by simp)
    have hm := (ok.prodOk node (ti.mem (p := (node, .turned)) (by simp)) hp).1
    simp only [emit, trace]
    rw [if_pos hp, if_pos hp]
    simp only [List.nil_append]
    refine h _ ⟨?_, ?_⟩ ?_
    · rw [hmem, ← hs.1]; rfl
    · intro F hF hh
      simp only [exec]
      split
      · rename_i e
        subst e
        rw [ti.vals.1 hm, hs.1]
      · rename_i e
        refine hs.2 F hF ?_
        rcases hh with hh | ⟨p, hp, h1, h2⟩
        · exact .inl hh
        · rcases List.mem_cons.mp hp with rfl | hp
          · exact absurd h1.symm e
          · exact .inr ⟨p, hp, h1, h2⟩
    · intro F hF
      rcases hr with rfl | ⟨-, rfl⟩ | ⟨hm', rfl⟩
      · cases hF
      · cases hF
        simp only [exec, hm, if_true]
        rw [ti.vals.1 hm, hs.1]
      · rw [hm] at hm'; cases hm'

theorem emit_stub {node : Node C} {todo : Todo C} (ok : Ok sem val prod env l)
    (ti : TInv sem val prod m0 l ((node, .stub) :: todo)) {done : List (Item C)}
    {r : Option Nat} {E : List (Event M)} (h : P sem val prod m0 l ((node, .stub) :: todo) done r E) :
    P sem val prod m0 l todo (emit node .stub done) r E := by
  intro s hs hfl
  have hp := ti.marks (node, .stub) (by simp) (by simp)
  have hm := (ok.prodOk node (ti.mem (p := (node, .stub)) (by simp)) hp).1
  simp only [emit, trace]
  refine h _ ⟨?_, ?_⟩ hfl
  · simp only [memOf, if_true]; exact hs.1
  · intro F hF hh
    simp only [exec]
    split
    · rename_i e
      subst e
      rw [ti.vals.1 hm, hs.1]
    · rename_i e
      refine hs.2 F hF ?_
      rcases hh with hh | ⟨p, hp, h1, h2⟩
      · exact .inl hh
      · rcases List.mem_cons.mp hp with rfl | hp
        · exact absurd h1.symm e
        · exact .inr ⟨p, hp, h1, h2⟩

theorem TInv.tail {p : Node C × Mark} {todo : Todo C} (ok : Ok sem val prod env l)
    (ti : TInv sem val prod m0 l (p :: todo)) : TInv sem val prod m0 l todo := by
  obtain ⟨n, k⟩ := p
  have hnd := ti.nodup ok.nodup
  refine ⟨(List.sublist_cons_self _ _).trans ti.sub, ti.vals.2, fun q hq => ti.marks q (by simp [hq]), ?_⟩
  intro q hq hqs G hG
  rcases ti.src q (by simp [hq]) hqs G hG with h | ⟨x, hx, h1, h2⟩
  · exact .inl h
  · rcases List.mem_cons.mp hx with rfl | hx
    · exfalso
      -- the producer would stand behind the test
      have hord : (((n, k) :: todo).map (·.1)).Pairwise fun x y => y.flag ≠ some x.id :=
        (List.pairwise_reverse.mpr ok.order).sublist ti.sub
      rw [List.map_cons, List.pairwise_cons] at hord
      exact hord.1 q.1 (List.mem_map_of_mem hq) (by rw [hG, ← h1])
    · exact .inr ⟨x, hx, h1, h2⟩

/-- The producer is moved, or the tests are changed, or the producer is copied. -/
theorem remat_ok (ok : Ok sem val prod env l) {node : Node C} {k : Mark} {todo : Todo C}
    (ti : TInv sem val prod m0 l ((node, k) :: todo)) (hk : k ≠ .stub) {done : List (Item C)}
    {F : Nat} {E : List (Event M)} (h : P sem val prod m0 l ((node, k) :: todo) done (some F) E)
    (hF : prod F = true) (hsrc : HasSrc l todo F) (hne : node.id ≠ F) (avail : Option Nat)
    (hnd : (consIds done).Nodup) (res : Todo C × List (Item C) × Bool)
    (hres : rematerializeOrMove env F node (inReads done) avail todo done = res) :
    TInv sem val prod m0 l ((node, k) :: res.1) ∧ res.1.length ≤ todo.length ∧
    wt sem val prod m0 ((node, k) :: res.1) = wt sem val prod m0 ((node, k) :: todo) ∧
    consIds res.2.1 = consIds done ∧
    (∀ p ∈ res.1, ∃ q ∈ todo, q.1 = p.1) ∧
    ((res.2.2 = false ∧ P sem val prod m0 l ((node, k) :: res.1) res.2.1 none E ∧ inReads res.2.1 = []) ∨
     (res.2.2 = true ∧ res.1 = todo ∧ ∃ A, avail = some A ∧
       P sem val prod m0 l ((node, k) :: res.1) res.2.1 (some A) E ∧ inReads res.2.1 = inReads done)) := by
  have tt := ti.tail ok
  have hnod := ti.nodup ok.nodup
  have hstores : ∀ p ∈ todo, p.1.id = F → p.1.stores = false := by
    intro p hp hid
    exact (ok.prodOk p.1 (tt.mem hp) (by rw [hid]; exact hF)).2.1
  unfold rematerializeOrMove at hres
  dsimp only at hres
  -- the move
  by_cases hmove : ∃ n kn, lookup F todo = some (n, kn) ∧ canMove F node todo = true
  · obtain ⟨n, kn, hl, hc⟩ := hmove
    rw [hl] at hres
    simp only [hc, if_true] at hres
    subst hres
    obtain ⟨hmem, hid, hkn⟩ := lookup_some hl
    have hnl := tt.mem hmem
    obtain ⟨hmod, hst, hfl, -⟩ := ok.prodOk n hnl (by rw [hid]; exact hF)
    have hmemOf : memOf sem m0 (takeOut F todo) = memOf sem m0 todo := takeOut_memOf F todo hstores
    have hmemOf' : memOf sem m0 ((node, k) :: takeOut F todo) = memOf sem m0 ((node, k) :: todo) := by
      simp only [memOf, hmemOf]
    have hcm : ∀ x ∈ node :: todo.map (·.1), F ∉ x.uses ∧ x.flag ≠ some F := by
      unfold canMove at hc
      rw [List.all_eq_true] at hc
      intro x hx
      have := hc x hx
      simp only [Bool.and_eq_true, Bool.not_eq_true', bne_iff_ne, ne_eq] at this
      refine ⟨fun hu => ?_, this.2⟩
      have h1 := this.1
      rw [List.contains_iff_mem.mpr hu] at h1
      cases h1
    refine ⟨⟨?_, ?_, ?_, ?_⟩, takeOut_len F todo, ?_, ?_, ?_, .inl ⟨rfl, ?_, ?_⟩⟩
    · exact (List.Sublist.cons_cons _ (takeOut_sub F todo)).trans ti.sub
    · refine ⟨fun hm => ?_, takeOut_vals F todo hstores tt.vals⟩
      rw [hmemOf]; exact ti.vals.1 hm
    · intro p hp hpp
      rcases List.mem_cons.mp hp with rfl | hp
      · exact ti.marks _ (by simp) hpp
      · rcases takeOut_mem hp with hp | ⟨-, h2, -⟩
        · exact tt.marks p hp hpp
        · rw [h2]; exact hF
    · intro p hp hps G hG
      have hp' : p ∈ (node, k) :: todo := by
        rcases List.mem_cons.mp hp with rfl | hp
        · simp
        · rcases takeOut_mem hp with hp | ⟨h1, -, -⟩
          · simp [hp]
          · exact absurd h1 hps
      have hGF : G ≠ F := by
        intro e
        subst e
        refine (hcm p.1 ?_).2 hG
        have := List.mem_map_of_mem (f := (·.1)) hp'
        simpa using this
      rcases ti.src p hp' hps G hG with hh | ⟨q, hq, h1, h2⟩
      · exact .inl hh
      · refine .inr ⟨q, ?_, h1, h2⟩
        rcases List.mem_cons.mp hq with rfl | hq
        · simp
        · exact List.mem_cons_of_mem _ (takeOut_keeps hq (by rw [h1]; exact hGF))
    · simp only [wt, takeOut_wt F todo hstores hF, hmemOf]
    · simp [consIds, hfl]
    · intro p hp
      rcases takeOut_mem hp with hp | ⟨-, -, h3⟩
      · exact ⟨p, hp, rfl⟩
      · exact ⟨_, h3, rfl⟩
    · -- the machine behind the moved producer
      intro s hs _
      simp only [trace]
      rw [if_pos (by rw [hid]; exact hF)]
      simp only [List.nil_append]
      -- the value of the flags
      have hv : sem.flags n.id (if (kn == .turned) = true then s.loaded n.id else s.mem) = val F := by
        rw [hid]
        cases hkt : kn with
        | stub => exact absurd hkt hkn
        | turned =>
          simp only [beq_self_eq_true, if_true]
          obtain ⟨q, hq, h1, h2⟩ := takeOut_marked (F := F) hmem (by rw [hkt]; simp)
          exact (hs.2 F hF (.inr ⟨q, List.mem_cons_of_mem _ hq, h1.trans hid, h2⟩)).symm
        | plain =>
          rw [if_neg (by simp)]
          obtain ⟨a, b, hab⟩ := List.append_of_mem hmem
          have hval := vals_mem (hab ▸ tt.vals) hmod
          rw [hid] at hval
          rw [hval]
          cases hrd : n.reads with
          | false =>
            have := ok.const n hnl hrd
            rw [hid] at this
            exact this _ _
          | true =>
            -- no store between the old and the new place
            have hpw : (((node, k) :: todo).map (·.1)).Pairwise fun y x =>
                prod x.id = true → x.reads = true → y.stores = true → x.id ∈ y.uses :=
              (List.pairwise_reverse.mpr ok.memOrder).sublist ti.sub
            have hns : ∀ p ∈ (node, k) :: a, p.1.stores = false := by
              intro p hp
              cases hps : p.1.stores with
              | false => rfl
              | true =>
                exfalso
                have hsplit : (((node, k) :: todo).map (·.1))
                    = ((node, k) :: a).map (·.1) ++ n :: b.map (·.1) := by
                  rw [hab]; simp
                rw [hsplit] at hpw
                have := (List.pairwise_append.mp hpw).2.2 p.1 (List.mem_map_of_mem hp) n (by simp)
                  (by rw [hid]; exact hF) hrd hps
                rw [hid] at this
                refine (hcm p.1 ?_).1 this
                rcases List.mem_cons.mp hp with rfl | hp
                · simp
                · rw [hab]
                  exact List.mem_cons_of_mem _ (List.mem_map_of_mem (by simp [hp]))
            have e1 : s.mem = memOf sem m0 b := by
              rw [hs.1, hmemOf']
              have : (node, k) :: todo = ((node, k) :: a ++ [(n, kn)]) ++ b := by rw [hab]; simp
              rw [this]
              apply memOf_nostore
              intro p hp
              rcases List.mem_append.mp hp with hp | hp
              · exact hns p hp
              · simp only [List.mem_singleton] at hp
                subst hp
                exact hst
            rw [e1]
      refine h _ ⟨?_, ?_⟩ ?_
      · have : s.mem = memOf sem m0 ((node, k) :: todo) := by rw [hs.1, hmemOf']
        simp only [exec, Sem.after, hst]
        exact this
      · intro F' hF' hh
        refine hs.2 F' hF' ?_
        rcases hh with hh | ⟨p, hp, h1, h2⟩
        · exact .inl hh
        · rcases List.mem_cons.mp hp with rfl | hp
          · exact .inr ⟨_, List.mem_cons_self, h1, h2⟩
          · obtain ⟨q, hq, e1, e2⟩ := takeOut_marked (F := F) hp h2
            exact .inr ⟨q, List.mem_cons_of_mem _ hq, e1.trans h1, e2⟩
      · intro F' e
        cases e
        simp only [exec, hmod, if_true]
        exact hv
    · simp [inReads, hfl, hmod]
  · -- the node to copy
    obtain ⟨n, hn⟩ : ∃ n, (match (generalizing := false) lookup F todo with
      | some (n, _) => n | none => env.outer F) = n := ⟨_, rfl⟩
    have hres : (if (match (generalizing := false) avail with | some a => env.repl F a | none => false) = true then
        (todo, invert env.inv (inReads done) done, true)
      else if env.turnBack = true then (turn F todo, .run n n.reads :: done, false)
      else (todo, .run n false :: done, false)) = res := by
      rw [← hn]
      cases hl : lookup F todo with
      | none => rw [hl] at hres; exact hres
      | some p =>
        rw [hl] at hres
        obtain ⟨x, kx⟩ := p
        have : canMove F node todo = false := by
          cases hc : canMove F node todo with
          | false => rfl
          | true => exact absurd ⟨x, kx, hl, hc⟩ hmove
        dsimp only at hres
        rw [this, if_neg Bool.false_ne_true] at hres
        exact hres
    by_cases hrep : (match (generalizing := false) avail with | some a => env.repl F a | none => false) = true
    · -- other flags are tested
      rw [if_pos hrep] at hres
      subst hres
      cases avail with
      | none => cases hrep
      | some A =>
        obtain ⟨i1, i2⟩ := invert_inReads env.inv (inReads done) done
        refine ⟨ti, Nat.le_refl _, rfl, i2, fun p hp => ⟨p, hp, rfl⟩, .inr ⟨rfl, rfl, A, rfl, ?_, i1⟩⟩
        intro s hs hfl
        have e := trace_invert ok hrep (inReads done) done hnd (fun _ _ => Iff.rfl) s
        have e' : ({ s with flags := val A } : Machine V M) = s := by
          rw [← hfl A rfl]
        rw [e'] at e
        show trace sem prod s (invert env.inv (inReads done) done) = E
        rw [e]
        exact h _ ⟨hs.1, hs.2⟩ (fun G hG => by cases hG; rfl)
    · rw [if_neg hrep] at hres
      have hnode : n.id = F ∧ n.modifies = true ∧ n.stores = false ∧ n.flag = none ∧
          ((∃ kx, lookup F todo = some (n, kx)) ∨ (F ∉ idsOf l ∧ n = env.outer F)) := by
        cases hl : lookup F todo with
        | none =>
          rw [hl] at hn
          have hout : F ∉ idsOf l := by
            rcases hsrc with hh | ⟨q, hq, h1, h2⟩
            · exact hh
            · exact absurd (lookup_none hl q hq h1) h2
          obtain ⟨a1, a2, a3, a4⟩ := ok.outerOk F hF hout
          rw [← hn]
          exact ⟨a1, a2, a3, a4, .inr ⟨hout, rfl⟩⟩
        | some p =>
          obtain ⟨x, kx⟩ := p
          rw [hl] at hn
          simp only at hn
          subst hn
          obtain ⟨hmem, hid, -⟩ := lookup_some hl
          obtain ⟨a2, a3, a4, -⟩ := ok.prodOk x (tt.mem hmem) (by rw [hid]; exact hF)
          exact ⟨hid, a2, a3, a4, .inl ⟨kx, rfl⟩⟩
      obtain ⟨hid, hmod, hst, hfl, hwhere⟩ := hnode
      -- flags that do not depend on memory
      have hconst : n.reads = false → ∀ s, Good sem val prod m0 l ((node, k) :: todo) s → ∀ m,
          sem.flags F m = val F := by
        intro hrd s hs m
        rcases hwhere with ⟨kx, hl⟩ | ⟨hout, e⟩
        · obtain ⟨hmem, -, -⟩ := lookup_some hl
          obtain ⟨a, b, hab⟩ := List.append_of_mem hmem
          have hval := vals_mem (hab ▸ tt.vals) hmod
          have hc := ok.const n (tt.mem hmem) hrd
          rw [hid] at hval hc
          rw [hval]
          exact hc _ _
        · rw [hs.2 F hF (.inl hout)]
          exact ok.constOuter F hF hout (by rw [← e]; exact hrd) _ _
      split at hres
      · rename_i htb
        subst hres
        have hmemOf := turn_memOf (sem := sem) (m0 := m0) F todo
        refine ⟨⟨?_, ?_, ?_, ?_⟩, by simp [turn], ?_, ?_, ?_, .inl ⟨rfl, ?_, ?_⟩⟩
        · rw [List.map_cons, turn_fst]
          exact ti.sub
        · refine ⟨fun hm => ?_, turn_vals F todo tt.vals⟩
          rw [hmemOf]; exact ti.vals.1 hm
        · intro p hp hpp
          rcases List.mem_cons.mp hp with rfl | hp
          · exact ti.marks _ (by simp) hpp
          · obtain ⟨q, hq, e1, e2⟩ := turn_mem hp
            rcases e2 with rfl | ⟨e2, -, -⟩
            · exact tt.marks p hq hpp
            · rw [e2]; exact hF
        · intro p hp hps G hG
          have hp' : ∃ q ∈ (node, k) :: todo, q.1 = p.1 ∧ q.2 ≠ .stub := by
            rcases List.mem_cons.mp hp with rfl | hp
            · exact ⟨_, List.mem_cons_self, rfl, hps⟩
            · obtain ⟨q, hq, e1, e2⟩ := turn_mem hp
              refine ⟨q, by simp [hq], e1, ?_⟩
              rcases e2 with rfl | ⟨-, -, e2⟩
              · exact hps
              · rw [e2]; simp
          obtain ⟨q, hq, e1, e2⟩ := hp'
          rcases ti.src q hq e2 G (by rw [e1]; exact hG) with hh | ⟨y, hy, h1, h2⟩
          · exact .inl hh
          · rcases List.mem_cons.mp hy with rfl | hy
            · exact .inr ⟨_, List.mem_cons_self, h1, h2⟩
            · obtain ⟨z, hz, z1, -, z2, -⟩ := turn_keeps (F := F) hy
              exact .inr ⟨z, List.mem_cons_of_mem _ hz, by rw [z1]; exact h1, z2 h2⟩
        · simp only [wt, turn_wt, hmemOf]
        · simp [consIds, hfl]
        · intro p hp
          obtain ⟨q, hq, e1, -⟩ := turn_mem hp
          exact ⟨q, hq, e1⟩
        · intro s hs _
          have hs' : Good sem val prod m0 l ((node, k) :: todo) s := by
            refine ⟨by rw [hs.1]; simp only [memOf, hmemOf], fun F' hF' hh => hs.2 F' hF' ?_⟩
            rcases hh with hh | ⟨p, hp, h1, h2⟩
            · exact .inl hh
            · rcases List.mem_cons.mp hp with rfl | hp
              · exact .inr ⟨_, List.mem_cons_self, h1, h2⟩
              · obtain ⟨z, hz, z1, z2, -, -⟩ := turn_keeps (F := F) hp
                exact .inr ⟨z, List.mem_cons_of_mem _ hz, by rw [z1]; exact h1, by rw [z2 h2]; exact h2⟩
          simp only [trace]
          rw [if_pos (by rw [hid]; exact hF)]
          simp only [List.nil_append]
          refine h _ ⟨?_, hs'.2⟩ ?_
          · simp only [exec, Sem.after, hst]
            exact hs'.1
          · intro F' e
            cases e
            simp only [exec, hmod, if_true, hid]
            cases hrd : n.reads with
            | false => exact hconst hrd s hs' _
            | true =>
              simp only [if_true]
              refine (hs.2 F hF ?_).symm
              rcases hwhere with ⟨kx, hl⟩ | ⟨hout, -⟩
              · obtain ⟨hmem, -, -⟩ := lookup_some hl
                obtain ⟨z, hz, z1, -, -, z2⟩ := turn_keeps (F := F) hmem
                exact .inr ⟨z, List.mem_cons_of_mem _ hz, by rw [z1]; exact hid, z2 hid hrd⟩
              · exact .inl hout
        · simp [inReads, hfl, hmod]
      · rename_i htb
        subst hres
        have hrd : n.reads = false := by
          rcases ok.mode with hm | hm
          · exact absurd hm htb
          · rcases hwhere with ⟨kx, hl⟩ | ⟨hout, e⟩
            · obtain ⟨hmem, -, -⟩ := lookup_some hl
              exact (hm F hF).1 n (tt.mem hmem) hid
            · rw [e]; exact (hm F hF).2 hout
        refine ⟨ti, Nat.le_refl _, rfl, by simp [consIds, hfl], fun p hp => ⟨p, hp, rfl⟩,
          .inl ⟨rfl, ?_, by simp [inReads, hfl, hmod]⟩⟩
        intro s hs _
        simp only [trace]
        rw [if_pos (by rw [hid]; exact hF)]
        simp only [List.nil_append]
        refine h _ ⟨?_, hs.2⟩ ?_
        · simp only [exec, Sem.after, hst]
          exact hs.1
        · intro F' e
          cases e
          simp only [exec, hmod, if_true, hid]
          exact hconst hrd s hs _

/-! ### The walk -/

/-- what happens at a node -/
def ev (sem : Sem V M C) (val : Nat → V) (prod : Nat → Bool) (m0 : M) (node : Node C) (todo : Todo C) :
    List (Event M) :=
  if prod node.id = true then []
  else [⟨node.id, node.flag.map fun f => sem.test node.cond (val f), memOf sem m0 todo⟩]

theorem wt_cons {node : Node C} {k : Mark} (hk : k ≠ .stub) (todo : Todo C) :
    wt sem val prod m0 ((node, k) :: todo) = wt sem val prod m0 todo ++ ev sem val prod m0 node todo := by
  simp [wt, ev, hk]

/-- tests do not stand at the start -/
def FirstOk (done : List (Item C)) : Prop :=
  ∀ n t, Item.run n t ∈ done → n.flag.isSome = true → n.first = false

structure Side (todo : Todo C) (done : List (Item C)) : Prop where
  nodup : (consIds done).Nodup
  disj : ∀ p ∈ todo, p.1.id ∉ consIds done
  first : FirstOk done

def St (sem : Sem V M C) (val : Nat → V) (prod : Nat → Bool) (m0 : M) (l : List (Node C)) (todo : Todo C)
    (done : List (Item C)) (needed : Option Nat) (consumers : List Nat) (E : List (Event M)) : Prop :=
  (needed = none ∧ consumers = [] ∧ ((P sem val prod m0 l todo done none E ∧ inReads done = []) ∨
    ∃ t k rest, todo = (t, k) :: rest ∧ k ≠ .stub ∧ t.modifies = true ∧
      P sem val prod m0 l todo done (some t.id) E)) ∨
  (∃ F, needed = some F ∧ prod F = true ∧ HasSrc l todo F ∧ P sem val prod m0 l todo done (some F) E ∧
    inReads done = consumers ∧ consumers ≠ [])

theorem emit_inReads {node : Node C} {k : Mark} (hk : k ≠ .stub) (done : List (Item C)) :
    inReads (emit node k done)
      = (if node.flag.isSome then [node.id] else []) ++ (if node.modifies then [] else inReads done) := by
  cases k with
  | stub => exact absurd rfl hk
  | plain => rfl
  | turned => rfl

theorem emit_consIds {node : Node C} {k : Mark} (hk : k ≠ .stub) (done : List (Item C)) :
    consIds (emit node k done) = (if node.flag.isSome then [node.id] else []) ++ consIds done := by
  cases k with
  | stub => exact absurd rfl hk
  | plain => rfl
  | turned => rfl

theorem Side.emit {node : Node C} {k : Mark} {todo : Todo C} {done : List (Item C)}
    (ok : Ok sem val prod env l) (ti : TInv sem val prod m0 l ((node, k) :: todo))
    (sd : Side ((node, k) :: todo) done) : Side todo (emit node k done) := by
  have hnod := ti.nodup ok.nodup
  rw [List.map_cons, List.nodup_cons] at hnod
  by_cases hk : k = .stub
  · subst hk
    refine ⟨sd.nodup, fun p hp => sd.disj p (by simp [hp]), ?_⟩
    intro n t h
    simp only [Model.BeFlags.emit, List.mem_cons] at h
    rcases h with h | h
    · cases h
    · exact sd.first n t h
  · have hmem := ti.mem (p := (node, k)) (by simp)
    refine ⟨?_, ?_, ?_⟩
    · rw [emit_consIds hk]
      split
      · refine List.nodup_cons.mpr ⟨sd.disj _ List.mem_cons_self, sd.nodup⟩
      · exact sd.nodup
    · intro p hp
      rw [emit_consIds hk]
      have h1 := sd.disj p (by simp [hp])
      have h2 : p.1.id ≠ node.id := fun e => hnod.1 (e ▸ List.mem_map_of_mem hp)
      split <;> simp [h1, h2]
    · intro n t h hf
      have : n = node ∨ Item.run n t ∈ done := by
        cases k with
        | stub => exact absurd rfl hk
        | plain =>
          simp only [Model.BeFlags.emit, List.mem_cons] at h
          rcases h with h | h
          · cases h; exact .inl rfl
          · exact .inr h
        | turned =>
          simp only [Model.BeFlags.emit, List.mem_cons] at h
          rcases h with h | h | h
          · cases h
          · cases h; exact .inl rfl
          · exact .inr h
      rcases this with rfl | h
      · obtain ⟨G, hG⟩ := Option.isSome_iff_exists.mp hf
        exact (ok.flagOk n hmem G hG).2
      · exact sd.first n t h hf

theorem invert_first {inv : C → C} {cs : List Nat} {done : List (Item C)} (h : FirstOk done) :
    FirstOk (invert inv cs done) := by
  intro n t hn hf
  obtain ⟨i, hi, e⟩ := List.mem_map.mp hn
  cases i with
  | load j => cases e
  | run x u =>
    dsimp only at e
    split at e
    · cases e
      exact h x _ hi hf
    · cases e
      exact h _ _ hi hf

theorem HasSrc.tail (ok : Ok sem val prod env l) {node : Node C} {k : Mark} {todo : Todo C} {F : Nat}
    (h : HasSrc l ((node, k) :: todo) F) (hne : k = .stub ∨ node.id ≠ F) : HasSrc l todo F := by
  rcases h with h | ⟨q, hq, h1, h2⟩
  · exact .inl h
  · rcases List.mem_cons.mp hq with rfl | hq
    · rcases hne with rfl | hne
      · exact absurd rfl h2
      · exact absurd h1 hne
    · exact .inr ⟨q, hq, h1, h2⟩

theorem remat_first (ok : Ok sem val prod env l) {node : Node C} {k : Mark} {todo : Todo C}
    (ti : TInv sem val prod m0 l ((node, k) :: todo)) {F : Nat} {cs : List Nat} {avail : Option Nat}
    {done : List (Item C)} (hF : prod F = true) (hsrc : HasSrc l todo F) (h : FirstOk done) :
    FirstOk (rematerializeOrMove env F node cs avail todo done).2.1 := by
  have tt := ti.tail ok
  have hcons : ∀ n t, n.flag = none → FirstOk (Item.run n t :: done) := by
    intro n t hn x u hx hf
    rcases List.mem_cons.mp hx with e | hx
    · cases e; rw [hn] at hf; cases hf
    · exact h x u hx hf
  have hlk : ∀ n kx, lookup F todo = some (n, kx) → n.flag = none := by
    intro n kx hl
    obtain ⟨hmem, hid, -⟩ := lookup_some hl
    exact (ok.prodOk n (tt.mem hmem) (by rw [hid]; exact hF)).2.2.1
  have hout : lookup F todo = none → (env.outer F).flag = none := by
    intro hl
    have hout : F ∉ idsOf l := by
      rcases hsrc with hh | ⟨q, hq, h1, h2⟩
      · exact hh
      · exact absurd (lookup_none hl q hq h1) h2
    exact (ok.outerOk F hF hout).2.2.2
  have hn : (match (generalizing := false) lookup F todo with
      | some (n, _) => n | none => env.outer F).flag = none := by
    cases hl : lookup F todo with
    | none => exact hout hl
    | some p => exact hlk p.1 p.2 hl
  have hother : ∀ b : Bool, FirstOk (if b = true then (todo, invert env.inv cs done, true)
      else if env.turnBack = true then
        (turn F todo, .run (match (generalizing := false) lookup F todo with
          | some (n, _) => n | none => env.outer F) (match (generalizing := false) lookup F todo with
          | some (n, _) => n | none => env.outer F).reads :: done, false)
      else (todo, .run (match (generalizing := false) lookup F todo with
          | some (n, _) => n | none => env.outer F) false :: done, false)).2.1 := by
    intro b
    by_cases hb : b = true
    · rw [if_pos hb]; exact invert_first h
    · rw [if_neg hb]
      by_cases ht : env.turnBack = true
      · rw [if_pos ht]; exact hcons _ _ hn
      · rw [if_neg ht]; exact hcons _ _ hn
  unfold rematerializeOrMove
  cases hl : lookup F todo with
  | none =>
    rw [hl] at hother
    exact hother _
  | some p =>
    obtain ⟨n, kx⟩ := p
    dsimp only
    by_cases hc : canMove F node todo = true
    · rw [if_pos hc]
      exact hcons _ _ (hlk n kx hl)
    · rw [if_neg hc]
      rw [hl] at hother
      exact hother _

theorem Side.remat (ok : Ok sem val prod env l) {node : Node C} {k : Mark} {todo todo' : Todo C}
    {done done' : List (Item C)} (sd : Side ((node, k) :: todo) done) (hc : consIds done' = consIds done)
    (hm : ∀ p ∈ todo', ∃ q ∈ todo, q.1 = p.1) (hf : FirstOk done') : Side ((node, k) :: todo') done' := by
  refine ⟨hc ▸ sd.nodup, ?_, hf⟩
  intro p hp
  rw [hc]
  rcases List.mem_cons.mp hp with rfl | hp
  · exact sd.disj _ List.mem_cons_self
  · obtain ⟨q, hq, e⟩ := hm p hp
    rw [← e]
    exact sd.disj q (by simp [hq])

/-- nothing is needed behind the node except its own flags -/
theorem step_none (ok : Ok sem val prod env l) {node : Node C} {k : Mark} {todo : Todo C}
    (ti : TInv sem val prod m0 l ((node, k) :: todo)) (hk : k ≠ .stub) {done : List (Item C)}
    {E : List (Event M)}
    (h : (P sem val prod m0 l ((node, k) :: todo) done none E ∧ inReads done = []) ∨
      (node.modifies = true ∧ P sem val prod m0 l ((node, k) :: todo) done (some node.id) E))
    (hf : node.flag = none) :
    St sem val prod m0 l todo (emit node k done) none [] (ev sem val prod m0 node todo ++ E) := by
  refine .inl ⟨rfl, rfl, .inl ?_⟩
  rcases h with ⟨h, hi⟩ | ⟨hm, h⟩
  · refine ⟨emit_ok ok ti hk h (by rw [hf]; intro G e; cases e) (.inl rfl), ?_⟩
    rw [emit_inReads hk, hf, hi]; simp
  · refine ⟨emit_ok ok ti hk h (by rw [hf]; intro G e; cases e) (.inr (.inl ⟨hm, rfl⟩)), ?_⟩
    rw [emit_inReads hk, hf, hm]; simp

theorem flag_src (ok : Ok sem val prod env l) {node : Node C} {k : Mark} {todo : Todo C}
    (ti : TInv sem val prod m0 l ((node, k) :: todo)) (hk : k ≠ .stub) {G : Nat}
    (hf : node.flag = some G) : prod G = true ∧ node.id ≠ G ∧ HasSrc l todo G := by
  have hmem := ti.mem (p := (node, k)) (by simp)
  have hG := (ok.flagOk node hmem G hf).1
  have hne : node.id ≠ G := by
    intro e
    have := (ok.prodOk node hmem (by rw [e]; exact hG)).2.2.1
    rw [hf] at this
    cases this
  exact ⟨hG, hne, (ti.src (node, k) (by simp) hk G hf).tail ok (.inr hne)⟩

theorem step_some (ok : Ok sem val prod env l) {node : Node C} {k : Mark} {todo : Todo C}
    (ti : TInv sem val prod m0 l ((node, k) :: todo)) (hk : k ≠ .stub) {done : List (Item C)}
    {E : List (Event M)}
    (h : (P sem val prod m0 l ((node, k) :: todo) done none E ∧ inReads done = []) ∨
      (node.modifies = true ∧ P sem val prod m0 l ((node, k) :: todo) done (some node.id) E))
    {G : Nat} (hf : node.flag = some G) :
    St sem val prod m0 l todo (emit node k done) (some G) [node.id]
      (ev sem val prod m0 node todo ++ E) := by
  obtain ⟨hG, -, hsrc⟩ := flag_src ok ti hk hf
  refine .inr ⟨G, rfl, hG, hsrc, ?_, ?_, by simp⟩
  · rcases h with ⟨h, hi⟩ | ⟨hm, h⟩
    · exact emit_ok ok ti hk h (by rw [hf]; exact fun G e => e) (.inl rfl)
    · exact emit_ok ok ti hk h (by rw [hf]; exact fun G e => e) (.inr (.inl ⟨hm, rfl⟩))
  · rw [emit_inReads hk, hf]
    rcases h with ⟨h, hi⟩ | ⟨hm, h⟩
    · simp [hi]
    · simp [hm]

theorem insertFirst_ok (ok : Ok sem val prod env l) {F : Nat} (hF : prod F = true) (ho : F ∉ idsOf l)
    (done : List (Item C)) (hfo : FirstOk done) (hi : inReads done ≠ []) (s : Machine V M)
    (hs : val F = sem.flags F (s.loaded F)) :
    trace sem prod s (insertFirst (.run (env.outer F) (env.turnBack && (env.outer F).reads)) done)
      = trace sem prod { s with flags := val F } done := by
  obtain ⟨hid, hmod, hst, hfl⟩ := ok.outerOk F hF ho
  have hplace : ∀ s : Machine V M, val F = sem.flags F (s.loaded F) → ∀ d : List (Item C),
      trace sem prod s (.run (env.outer F) (env.turnBack && (env.outer F).reads) :: d)
        = trace sem prod { s with flags := val F } d := by
    intro s hs d
    simp only [trace]
    rw [if_pos (by rw [hid]; exact hF)]
    simp only [List.nil_append, exec, hmod, if_true, Sem.after, hst, hid]
    have : sem.flags F (if (env.turnBack && (env.outer F).reads) = true then s.loaded F else s.mem)
        = val F := by
      split
      · exact hs.symm
      · rename_i hh
        rw [hs]
        refine ok.constOuter F hF ho ?_ _ _
        rcases ok.mode with hm | hm
        · rw [hm, Bool.true_and] at hh
          simpa using hh
        · exact (hm F hF).2 ho
    rw [this]
    rfl
  induction done generalizing s with
  | nil => exact absurd rfl hi
  | cons x xs ih =>
    cases x with
    | load j => exact hplace s hs _
    | run n t =>
      simp only [insertFirst]
      by_cases hn : n.first = true
      · rw [if_pos hn]
        have hnf : n.flag = none := by
          cases hf : n.flag with
          | none => rfl
          | some G =>
            have := hfo n t (by simp) (by simp [hf])
            rw [hn] at this
            cases this
        have hnm : n.modifies = false := by
          cases hm : n.modifies with
          | false => rfl
          | true => simp [inReads, hnf, hm] at hi
        simp only [trace, hnf, Option.map_none]
        congr 1
        rw [ih (fun n t h => hfo n t (by simp [h])) (by simpa [inReads, hnf, hnm] using hi)
          (exec sem s (.run n t)) hs]
        simp only [exec, hnm]
        rfl
      · rw [if_neg hn]
        exact hplace s hs _

theorem finish_ok (ok : Ok sem val prod env l) {done : List (Item C)} {needed : Option Nat}
    {consumers : List Nat} {E : List (Event M)} (sd : Side [] done)
    (h : St sem val prod m0 l [] done needed consumers E) (s : Machine V M)
    (hs : Good sem val prod m0 l [] s) : trace sem prod s (finish env done needed) = E := by
  rcases h with ⟨rfl, -, h⟩ | ⟨F, rfl, hF, hsrc, h, hi, hne⟩
  · rcases h with ⟨h, -⟩ | ⟨t, k, rest, e, -⟩
    · exact h s hs (fun F e => by cases e)
    · cases e
  · have ho : F ∉ idsOf l := by
      rcases hsrc with hh | ⟨q, hq, -⟩
      · exact hh
      · cases hq
    simp only [finish]
    rw [insertFirst_ok ok hF ho done sd.first (by rw [hi]; exact hne) s (hs.2 F hF (.inl ho))]
    exact h _ ⟨hs.1, hs.2⟩ (fun G e => by cases e; rfl)

theorem walk_none {node : Node C} {k : Mark} (hk : k ≠ .stub) (fuel : Nat) (todo : Todo C)
    (done : List (Item C)) (cs : List Nat) :
    walk env (fuel + 1) ((node, k) :: todo) done none cs
      = match node.flag with
        | none => walk env fuel todo (emit node k done) none cs
        | some G => walk env fuel todo (emit node k done) (some G) (node.id :: cs) := by
  simp only [walk, if_neg hk]
  rw [if_neg (by simp)]
  cases node.flag with
  | none => rfl
  | some G => simp

theorem walk_same {node : Node C} {k : Mark} (hk : k ≠ .stub) (fuel : Nat) (todo : Todo C)
    (done : List (Item C)) (cs : List Nat) :
    walk env (fuel + 1) ((node, k) :: todo) done (some node.id) cs
      = match node.flag with
        | none => walk env fuel todo (emit node k done) none []
        | some G => walk env fuel todo (emit node k done) (some G) (node.id :: []) := by
  simp only [walk, if_neg hk, if_true]
  cases node.flag with
  | none => rfl
  | some G => simp

theorem walk_destroy {node : Node C} {k : Mark} (hk : k ≠ .stub) (fuel : Nat) (todo : Todo C)
    (done : List (Item C)) (cs : List Nat) {F t : Nat} (hne : node.id ≠ F)
    (hd : destroys node todo = some t) :
    walk env (fuel + 1) ((node, k) :: todo) done (some F) cs
      = match node.flag with
        | none => walk env fuel (rematerializeOrMove env F node cs (some t) todo done).1
            (emit node k (rematerializeOrMove env F node cs (some t) todo done).2.1) none []
        | some G => walk env fuel (rematerializeOrMove env F node cs (some t) todo done).1
            (emit node k (rematerializeOrMove env F node cs (some t) todo done).2.1) (some G)
            (node.id :: []) := by
  simp only [walk, if_neg hk]
  rw [if_neg (by simpa using fun e => hne e.symm), hd]
  cases node.flag with
  | none => rfl
  | some G => simp

theorem walk_needed {node : Node C} {k : Mark} (hk : k ≠ .stub) (fuel : Nat) (todo : Todo C)
    (done : List (Item C)) (cs : List Nat) {F : Nat} (hne : node.id ≠ F)
    (hd : destroys node todo = none) :
    walk env (fuel + 1) ((node, k) :: todo) done (some F) cs
      = match node.flag with
        | none => walk env fuel todo (emit node k done) (some F) cs
        | some G =>
          if F = G then walk env fuel todo (emit node k done) (some F) (node.id :: cs)
          else walk env fuel (rematerializeOrMove env F node cs (some G) todo done).1
            (emit node k (rematerializeOrMove env F node cs (some G) todo done).2.1) (some G)
            (node.id :: if (rematerializeOrMove env F node cs (some G) todo done).2.2 then cs else []) := by
  simp only [walk, if_neg hk]
  rw [if_neg (by simpa using fun e => hne e.symm), hd]
  cases node.flag with
  | none => rfl
  | some G => simp

theorem walk_ok (ok : Ok sem val prod env l) : ∀ (fuel : Nat) (todo : Todo C) (done : List (Item C))
    (needed : Option Nat) (consumers : List Nat) (E : List (Event M)), todo.length ≤ fuel →
    TInv sem val prod m0 l todo → Side todo done → St sem val prod m0 l todo done needed consumers E →
    ∀ s, Good sem val prod m0 l [] s →
    trace sem prod s (walk env fuel todo done needed consumers) = wt sem val prod m0 todo ++ E := by
  intro fuel
  induction fuel with
  | zero =>
    intro todo done needed consumers E hlen ti sd st s hs
    have : todo = [] := List.length_eq_zero_iff.mp (by omega)
    subst this
    simp only [walk, wt, List.nil_append]
    exact finish_ok ok sd st s hs
  | succ fuel ih =>
    intro todo done needed consumers E hlen ti sd st s hs
    cases todo with
    | nil =>
      simp only [walk, wt, List.nil_append]
      exact finish_ok ok sd st s hs
    | cons p todo =>
      obtain ⟨node, k⟩ := p
      have hlen' : todo.length ≤ fuel := by simpa using hlen
      by_cases hk : k = .stub
      · subst hk
        have e : walk env (fuel + 1) ((node, .stub) :: todo) done needed consumers
            = walk env fuel todo (emit node .stub done) needed consumers := by
          simp only [walk, if_true]
        have e2 : wt sem val prod m0 ((node, .stub) :: todo) = wt sem val prod m0 todo := by
          simp [wt]
        rw [e, e2]
        refine ih todo _ needed consumers E hlen' (ti.tail ok) (sd.emit ok ti) ?_ s hs
        rcases st with ⟨h1, h2, h⟩ | ⟨F, rfl, hF, hsrc, h, hi, hne⟩
        · rcases h with ⟨h, hi⟩ | ⟨t, k, rest, e, hk, -⟩
          · exact .inl ⟨h1, h2, .inl ⟨emit_stub ok ti h, hi⟩⟩
          · cases e
            exact absurd rfl hk
        · exact .inr ⟨F, rfl, hF, hsrc.tail ok (.inl rfl), emit_stub ok ti h, hi, hne⟩
      · have tt := ti.tail ok
        have hmem := ti.mem (p := (node, k)) (by simp)
        -- nothing is needed behind
        have hB : ∀ (todo' : Todo C) (done' : List (Item C)), todo'.length ≤ fuel →
            TInv sem val prod m0 l ((node, k) :: todo') → Side ((node, k) :: todo') done' →
            ((P sem val prod m0 l ((node, k) :: todo') done' none E ∧ inReads done' = []) ∨
              (node.modifies = true ∧ P sem val prod m0 l ((node, k) :: todo') done' (some node.id) E)) →
            trace sem prod s (match node.flag with
              | none => walk env fuel todo' (emit node k done') none []
              | some G => walk env fuel todo' (emit node k done') (some G) (node.id :: []))
              = wt sem val prod m0 ((node, k) :: todo') ++ E := by
          intro todo' done' hl' ti' sd' h
          rw [wt_cons hk, List.append_assoc]
          cases hf : node.flag with
          | none => exact ih todo' _ _ _ _ hl' (ti'.tail ok) (sd'.emit ok ti') (step_none ok ti' hk h hf) s hs
          | some G => exact ih todo' _ _ _ _ hl' (ti'.tail ok) (sd'.emit ok ti') (step_some ok ti' hk h hf) s hs
        rcases st with ⟨rfl, rfl, h⟩ | ⟨F, rfl, hF, hsrc, h, hi, hcs⟩
        · rw [walk_none hk]
          refine hB todo done hlen' ti sd ?_
          rcases h with h | ⟨t, kt, rest, e, -, hm, h⟩
          · exact .inl h
          · cases e
            exact .inr ⟨hm, h⟩
        · by_cases hid : node.id = F
          · subst hid
            rw [walk_same hk]
            exact hB todo done hlen' ti sd (.inr ⟨(ok.prodOk node hmem hF).1, h⟩)
          · have hsrc' := hsrc.tail ok (.inr hid)
            cases hd : destroys node todo with
            | none =>
              have hm : node.modifies = false := by
                unfold destroys at hd
                by_cases hke : node.keep = true
                · exact (ok.keepOk node hmem hke).1
                · rw [if_neg hke] at hd
                  cases hm : node.modifies with
                  | false => rfl
                  | true => rw [hm] at hd; cases hd
              rw [walk_needed hk _ _ _ _ hid hd]
              cases hf : node.flag with
              | none =>
                dsimp only
                rw [wt_cons hk, List.append_assoc]
                refine ih todo _ _ _ _ hlen' tt (sd.emit ok ti) (.inr ⟨F, rfl, hF, hsrc', ?_, ?_, hcs⟩) s hs
                · exact emit_ok ok ti hk h (by rw [hf]; intro G e; cases e) (.inr (.inr ⟨hm, rfl⟩))
                · rw [emit_inReads hk, hf, hm]; simpa using hi
              | some G =>
                dsimp only
                obtain ⟨hG, -, hsG⟩ := flag_src ok ti hk hf
                by_cases hFG : F = G
                · subst hFG
                  rw [if_pos rfl, wt_cons hk, List.append_assoc]
                  refine ih todo _ _ _ _ hlen' tt (sd.emit ok ti) (.inr ⟨F, rfl, hF, hsrc', ?_, ?_, by simp⟩) s hs
                  · exact emit_ok ok ti hk h (by rw [hf]; exact fun G e => e) (.inr (.inr ⟨hm, rfl⟩))
                  · rw [emit_inReads hk, hf, hm]; simpa using hi
                · rw [if_neg hFG]
                  generalize hr : rematerializeOrMove env F node consumers (some G) todo done = res
                  subst hi
                  have hfi := remat_first ok ti (cs := inReads done) (avail := some G) hF hsrc' sd.first
                  rw [hr] at hfi
                  obtain ⟨r1, r2, r3, r4, r5, r6⟩ :=
                    remat_ok ok ti hk h hF hsrc' hid (some G) sd.nodup res hr
                  have sd' := sd.remat ok r4 r5 hfi
                  have hsG' := (flag_src ok r1 hk hf).2.2
                  rw [← r3, wt_cons hk, List.append_assoc]
                  refine ih res.1 _ _ _ _ (Nat.le_trans r2 hlen') (r1.tail ok) (sd'.emit ok r1)
                    (.inr ⟨G, rfl, hG, hsG', ?_, ?_, by simp⟩) s hs
                  · rcases r6 with ⟨-, h6, -⟩ | ⟨-, -, A, eA, h6, -⟩
                    · exact emit_ok ok r1 hk h6 (by rw [hf]; exact fun G e => e) (.inl rfl)
                    · cases eA
                      exact emit_ok ok r1 hk h6 (by rw [hf]; exact fun G e => e) (.inr (.inr ⟨hm, rfl⟩))
                  · rw [emit_inReads hk, hf, hm]
                    rcases r6 with ⟨e6, -, i6⟩ | ⟨e6, -, A, eA, h6, i6⟩
                    · simp [e6, i6]
                    · simp [e6, i6]
            | some t =>
              rw [walk_destroy hk _ _ _ _ hid hd]
              generalize hr : rematerializeOrMove env F node consumers (some t) todo done = res
              subst hi
              have hfi := remat_first ok ti (cs := inReads done) (avail := some t) hF hsrc' sd.first
              rw [hr] at hfi
              obtain ⟨r1, r2, r3, r4, r5, r6⟩ :=
                remat_ok ok ti hk h hF hsrc' hid (some t) sd.nodup res hr
              have sd' := sd.remat ok r4 r5 hfi
              rw [← r3]
              rcases r6 with ⟨-, h6, i6⟩ | ⟨-, er, A, eA, h6, i6⟩
              · exact hB res.1 res.2.1 (Nat.le_trans r2 hlen') r1 sd' (.inl ⟨h6, i6⟩)
              · cases eA
                unfold destroys at hd
                by_cases hke : node.keep = true
                · rw [if_pos hke] at hd
                  obtain ⟨hm, hf⟩ := ok.keepOk node hmem hke
                  rw [hf, wt_cons hk, List.append_assoc]
                  refine ih res.1 _ _ _ _ (Nat.le_trans r2 hlen') (r1.tail ok) (sd'.emit ok r1)
                    (.inl ⟨rfl, rfl, .inr ?_⟩) s hs
                  rw [er] at h6 r1 ⊢
                  cases todo with
                  | nil => cases hd
                  | cons p rest =>
                    obtain ⟨x, kx⟩ := p
                    dsimp only at hd
                    split at hd
                    · rename_i hx
                      cases hd
                      exact ⟨x, kx, rest, rfl, hx.1, hx.2,
                        emit_ok ok r1 hk h6 (by rw [hf]; intro G e; cases e) (.inr (.inr ⟨hm, rfl⟩))⟩
                    · cases hd
                · rw [if_neg hke] at hd
                  cases hm : node.modifies with
                  | false => rw [hm] at hd; cases hd
                  | true =>
                    rw [hm, if_pos rfl] at hd
                    cases hd
                    exact hB res.1 res.2.1 (Nat.le_trans r2 hlen') r1 sd' (.inr ⟨hm, h6⟩)

/-! ### The start -/

theorem plain_memOf (r : List (Node C)) :
    memOf sem m0 (r.map fun n => (n, Mark.plain)) = sem.memAfter m0 r.reverse := by
  induction r with
  | nil => rfl
  | cons x xs ih => simp [memOf, ih, Sem.memAfter, List.foldl_append]

theorem wanted_append (a b : List (Node C)) (m : M) :
    wanted sem val prod m (a ++ b) = wanted sem val prod m a ++ wanted sem val prod (sem.memAfter m a) b := by
  induction a generalizing m with
  | nil => rfl
  | cons x xs ih => simp [wanted, ih, Sem.memAfter, List.append_assoc]

theorem plain_wt (r : List (Node C)) :
    wt sem val prod m0 (r.map fun n => (n, Mark.plain)) = wanted sem val prod m0 r.reverse := by
  induction r with
  | nil => rfl
  | cons x xs ih =>
    rw [List.reverse_cons, wanted_append, ← ih]
    simp [wt, wanted, plain_memOf]

theorem plain_vals (r : List (Node C)) (h : Values sem val m0 r.reverse) :
    Vals sem val m0 (r.map fun n => (n, Mark.plain)) := by
  induction r with
  | nil => trivial
  | cons x xs ih =>
    refine ⟨fun hm => ?_, ih ?_⟩
    · rw [plain_memOf]
      exact h xs.reverse x [] (by simp) hm
    · intro l1 y l2 e hm
      exact h l1 y (l2 ++ [x]) (by rw [List.reverse_cons, e]; simp) hm

theorem fixFlags_ok (ok : Ok sem val prod env l) (hv : Values sem val m0 l)
    (s : Machine V M) (hs : s.mem = m0)
    (ho : ∀ F, prod F = true → F ∉ idsOf l → val F = sem.flags F (s.loaded F)) :
    trace sem prod s (fixFlags env l) = wanted sem val prod m0 l := by
  have hwt := plain_wt (sem := sem) (val := val) (prod := prod) (m0 := m0) l.reverse
  rw [List.reverse_reverse] at hwt
  rw [← hwt, ← List.append_nil (wt _ _ _ _ _)]
  unfold fixFlags
  refine walk_ok ok _ _ _ _ _ [] (by simp) ?_ ?_ ?_ s ⟨hs, ?_⟩
  · refine ⟨?_, plain_vals _ (by rw [List.reverse_reverse]; exact hv), ?_, ?_⟩
    · rw [List.map_map]
      have : (Prod.fst ∘ fun n : Node C => (n, Mark.plain)) = id := rfl
      rw [this, List.map_id]
      exact List.Sublist.refl _
    · intro p hp hpp
      obtain ⟨n, -, e⟩ := List.mem_map.mp hp
      rw [← e] at hpp
      exact absurd rfl hpp
    · intro p hp _ G hG
      by_cases hin : G ∈ idsOf l
      · obtain ⟨x, hx, e⟩ := List.mem_map.mp hin
        exact .inr ⟨(x, .plain), List.mem_map.mpr ⟨x, by simpa using hx, rfl⟩, e, by simp⟩
      · exact .inl hin
  · exact ⟨by simp [consIds], fun p _ => by simp [consIds], fun n t h => nomatch h⟩
  · exact .inl ⟨rfl, rfl, .inl ⟨fun s _ _ => rfl, rfl⟩⟩
  · intro F hF hh
    rcases hh with hh | ⟨p, hp, -⟩
    · exact ho F hF hh
    · cases hp

/-! ### Operands -/

section
variable {blk : List Nat} {us : Nat → List Nat}

theorem computed_mono {d : List (Item C)} {a b : List Nat} (h : Computed blk us a d) (hs : ∀ u ∈ a, u ∈ b) :
    Computed blk us b d := by
  induction d generalizing a b with
  | nil => trivial
  | cons x xs ih =>
    cases x with
    | load i => exact ⟨fun u hu hb => hs u (h.1 u hu hb), ih h.2 hs⟩
    | run n t =>
      refine ⟨fun u hu hb => hs u (h.1 u hu hb), ih h.2 ?_⟩
      intro u hu
      rcases List.mem_cons.mp hu with rfl | hu
      · simp
      · simp [hs u hu]

def srcIds : Todo C → List Nat
  | [] => []
  | (n, k) :: r => if k = .stub then srcIds r else n.id :: srcIds r

variable (blk us) in
def TOrd : Todo C → Prop
  | [] => True
  | (n, _) :: r => us n.id = n.uses ∧ (∀ u ∈ n.uses, u ∈ blk → u ∈ srcIds r) ∧ TOrd r

theorem TOrd.find {todo : Todo C} (h : TOrd blk us todo) {p : Node C × Mark} (hp : p ∈ todo) :
    ∀ u ∈ p.1.uses, u ∈ blk → u ∈ srcIds todo := by
  induction todo with
  | nil => cases hp
  | cons q r ih =>
    obtain ⟨n, k⟩ := q
    intro u hu hb
    have : u ∈ srcIds r := by
      rcases List.mem_cons.mp hp with rfl | hp
      · exact h.2.1 u hu hb
      · exact ih h.2.2 hp u hu hb
    simp only [srcIds]
    split
    · exact this
    · exact List.mem_cons_of_mem _ this

theorem turn_srcIds (F : Nat) (todo : Todo C) : srcIds (turn F todo) = srcIds todo := by
  induction todo with
  | nil => rfl
  | cons p r ih =>
    obtain ⟨n, k⟩ := p
    simp only [turn, List.map_cons] at ih ⊢
    by_cases h : n.id = F ∧ k = .plain ∧ n.reads = true
    · rw [if_pos h]
      simp [srcIds, ih, h.2.1]
    · rw [if_neg h]
      simp only [srcIds, ih]

theorem turn_tord (F : Nat) (todo : Todo C) (h : TOrd blk us todo) : TOrd blk us (turn F todo) := by
  induction todo with
  | nil => trivial
  | cons p r ih =>
    obtain ⟨n, k⟩ := p
    have hs := turn_srcIds F r
    have := ih h.2.2
    simp only [turn, List.map_cons] at this hs ⊢
    split <;> exact ⟨h.1, by rw [hs]; exact h.2.1, this⟩

theorem takeOut_srcIds {F u : Nat} {todo : Todo C} (h : u ∈ srcIds todo) (hu : u ≠ F) :
    u ∈ srcIds (takeOut F todo) := by
  induction todo with
  | nil => cases h
  | cons p r ih =>
    obtain ⟨n, k⟩ := p
    simp only [takeOut]
    simp only [srcIds] at h
    split
    · rename_i hn
      rw [if_neg hn.2] at h
      have : u ∈ srcIds r := by
        rcases List.mem_cons.mp h with rfl | h
        · exact absurd hn.1 hu
        · exact h
      split
      · simpa [srcIds] using this
      · exact this
    · simp only [srcIds]
      split at h
      · rename_i hk
        rw [if_pos hk]
        exact ih h
      · rename_i hk
        rw [if_neg hk]
        rcases List.mem_cons.mp h with rfl | h
        · simp
        · exact List.mem_cons_of_mem _ (ih h)

theorem takeOut_tord {F : Nat} {todo : Todo C} (h : TOrd blk us todo) (hF : ∀ p ∈ todo, F ∉ p.1.uses) :
    TOrd blk us (takeOut F todo) := by
  induction todo with
  | nil => trivial
  | cons p r ih =>
    obtain ⟨n, k⟩ := p
    simp only [takeOut]
    split
    · split
      · exact ⟨h.1, h.2.1, h.2.2⟩
      · exact h.2.2
    · refine ⟨h.1, ?_, ih h.2.2 (fun p hp => hF p (by simp [hp]))⟩
      intro u hu hb
      refine takeOut_srcIds (h.2.1 u hu hb) ?_
      rintro rfl
      exact hF (n, k) (by simp) hu

theorem invert_computed {inv : C → C} {cs : List Nat} {d : List (Item C)} {a : List Nat}
    (h : Computed blk us a d) : Computed blk us a (invert inv cs d) := by
  induction d generalizing a with
  | nil => trivial
  | cons x xs ih =>
    cases x with
    | load i => exact ⟨h.1, ih h.2⟩
    | run n t =>
      show Computed blk us a ((if n.flag.isSome ∧ n.id ∈ cs then .run { n with cond := inv n.cond } t
        else .run n t) :: invert inv cs xs)
      split
      · exact ⟨h.1, ih h.2⟩
      · exact ⟨h.1, ih h.2⟩

theorem emit_computed {node : Node C} {k : Mark} {todo : Todo C} {d : List (Item C)}
    (ht : TOrd blk us ((node, k) :: todo)) (h : Computed blk us (srcIds ((node, k) :: todo)) d) :
    Computed blk us (srcIds todo) (emit node k d) := by
  obtain ⟨h1, h2, -⟩ := ht
  cases k with
  | plain => exact ⟨h2, by simpa [srcIds] using h⟩
  | turned => exact ⟨by rw [h1]; exact h2, h2, by simpa [srcIds] using h⟩
  | stub => exact ⟨by rw [h1]; exact h2, by simpa [srcIds] using h⟩

theorem remat_computed {node : Node C} {k : Mark} {todo : Todo C} {d : List (Item C)} {F : Nat}
    {cs : List Nat} {avail : Option Nat} (ho : ∀ F, ∀ u ∈ (env.outer F).uses, u ∉ blk)
    (ht : TOrd blk us ((node, k) :: todo)) (h : Computed blk us (srcIds ((node, k) :: todo)) d)
    (hne : node.id ≠ F) :
    TOrd blk us ((node, k) :: (rematerializeOrMove env F node cs avail todo d).1) ∧
    Computed blk us (srcIds ((node, k) :: (rematerializeOrMove env F node cs avail todo d).1))
      (rematerializeOrMove env F node cs avail todo d).2.1 := by
  have hbig : ∀ (t : Todo C) u, u ∈ srcIds t → u ∈ srcIds ((node, k) :: t) := by
    intro t u hu
    simp only [srcIds]
    split
    · exact hu
    · exact List.mem_cons_of_mem _ hu
  -- a copy
  have hcopy : ∀ (t : Todo C), TOrd blk us t → srcIds t = srcIds todo → ∀ b,
      TOrd blk us ((node, k) :: t) ∧ Computed blk us (srcIds ((node, k) :: t))
        (.run (match (generalizing := false) lookup F todo with
          | some (n, _) => n | none => env.outer F) b :: d) := by
    intro t htt e b
    refine ⟨⟨ht.1, by rw [e]; exact ht.2.1, htt⟩, ?_, ?_⟩
    · intro u hu hb
      refine hbig _ u ?_
      rw [e]
      cases hl : lookup F todo with
      | none =>
        rw [hl] at hu
        exact absurd hb (ho F u hu)
      | some p =>
        obtain ⟨x, kx⟩ := p
        rw [hl] at hu
        exact ht.2.2.find (lookup_some hl).1 u hu hb
    · refine computed_mono h fun u hu => List.mem_cons_of_mem _ ?_
      simp only [srcIds, e] at hu ⊢
      exact hu
  have hother : ∀ b : Bool, TOrd blk us ((node, k) :: (if b = true then (todo, invert env.inv cs d, true)
      else if env.turnBack = true then
        (turn F todo, .run (match (generalizing := false) lookup F todo with
          | some (n, _) => n | none => env.outer F) (match (generalizing := false) lookup F todo with
          | some (n, _) => n | none => env.outer F).reads :: d, false)
      else (todo, .run (match (generalizing := false) lookup F todo with
          | some (n, _) => n | none => env.outer F) false :: d, false)).1) ∧
      Computed blk us (srcIds ((node, k) :: (if b = true then (todo, invert env.inv cs d, true)
      else if env.turnBack = true then
        (turn F todo, .run (match (generalizing := false) lookup F todo with
          | some (n, _) => n | none => env.outer F) (match (generalizing := false) lookup F todo with
          | some (n, _) => n | none => env.outer F).reads :: d, false)
      else (todo, .run (match (generalizing := false) lookup F todo with
          | some (n, _) => n | none => env.outer F) false :: d, false)).1)) (if b = true then (todo, invert env.inv cs d, true)
      else if env.turnBack = true then
        (turn F todo, .run (match (generalizing := false) lookup F todo with
          | some (n, _) => n | none => env.outer F) (match (generalizing := false) lookup F todo with
          | some (n, _) => n | none => env.outer F).reads :: d, false)
      else (todo, .run (match (generalizing := false) lookup F todo with
          | some (n, _) => n | none => env.outer F) false :: d, false)).2.1 := by
    intro b
    by_cases hb : b = true
    · simp only [if_pos hb]
      exact ⟨ht, invert_computed h⟩
    · simp only [if_neg hb]
      by_cases htb : env.turnBack = true
      · simp only [if_pos htb]
        exact hcopy _ (turn_tord F todo ht.2.2) (turn_srcIds F todo) _
      · simp only [if_neg htb]
        exact hcopy _ ht.2.2 rfl _
  unfold rematerializeOrMove
  cases hl : lookup F todo with
  | none =>
    rw [hl] at hother
    exact hother _
  | some p =>
    obtain ⟨n, kx⟩ := p
    dsimp only
    by_cases hc : canMove F node todo = true
    · rw [if_pos hc]
      dsimp only
      have hcm : ∀ x ∈ node :: todo.map (·.1), F ∉ x.uses := by
        intro x hx
        have := List.all_eq_true.mp hc x hx
        simp only [Bool.and_eq_true, Bool.not_eq_true', List.contains_eq_mem,
          decide_eq_false_iff_not] at this
        exact this.1
      have hcm' : ∀ p ∈ todo, F ∉ p.1.uses := fun p hp =>
        hcm p.1 (List.mem_cons_of_mem _ (List.mem_map_of_mem hp))
      have hkeep : ∀ x : Node C, F ∉ x.uses → ∀ u ∈ x.uses, u ∈ srcIds todo → u ∈ srcIds (takeOut F todo) := by
        intro x hx u hu hm
        refine takeOut_srcIds hm ?_
        rintro rfl
        exact hx hu
      obtain ⟨hm, hid, -⟩ := lookup_some hl
      refine ⟨⟨ht.1, fun u hu hb => hkeep node (hcm node (by simp)) u hu (ht.2.1 u hu hb),
        takeOut_tord ht.2.2 hcm'⟩, ?_, ?_⟩
      · intro u hu hb
        exact hbig _ u (hkeep n (hcm' (n, kx) hm) u hu (ht.2.2.find hm u hu hb))
      · refine computed_mono h fun u hu => ?_
        by_cases e : u = F
        · subst e; rw [hid]; simp
        · refine List.mem_cons_of_mem _ ?_
          simp only [srcIds] at hu ⊢
          split at hu
          · rename_i hk
            rw [if_pos hk]
            exact takeOut_srcIds hu e
          · rename_i hk
            rw [if_neg hk]
            rcases List.mem_cons.mp hu with rfl | hu
            · simp
            · exact List.mem_cons_of_mem _ (takeOut_srcIds hu e)
    · rw [if_neg hc]
      rw [hl] at hother
      exact hother _

theorem insertFirst_computed {i : Node C} {t : Bool} (hi : ∀ u ∈ i.uses, u ∉ blk) (d : List (Item C))
    (a : List Nat) (h : Computed blk us a d) : Computed blk us a (insertFirst (.run i t) d) := by
  have hp : ∀ d : List (Item C), ∀ a, Computed blk us a d → Computed blk us a (.run i t :: d) := fun d a h =>
    ⟨fun u hu hb => absurd hb (hi u hu), computed_mono h fun u hu => List.mem_cons_of_mem _ hu⟩
  induction d generalizing a with
  | nil => exact hp _ _ h
  | cons x xs ih =>
    cases x with
    | load j => exact hp _ _ h
    | run n u =>
      simp only [insertFirst]
      split
      · exact ⟨h.1, ih _ h.2⟩
      · exact hp _ _ h

theorem finish_computed (ho : ∀ F, ∀ u ∈ (env.outer F).uses, u ∉ blk) {d : List (Item C)} {a : List Nat}
    (h : Computed blk us a d) (needed : Option Nat) : Computed blk us a (finish env d needed) := by
  cases needed with
  | none => exact h
  | some F => exact insertFirst_computed (ho F) d a h

theorem remat_len (F : Nat) (node : Node C) (cs : List Nat) (avail : Option Nat) (todo : Todo C)
    (d : List (Item C)) : (rematerializeOrMove env F node cs avail todo d).1.length ≤ todo.length := by
  have h1 := takeOut_len F todo
  have h2 : (turn F todo).length = todo.length := by simp [turn]
  unfold rematerializeOrMove
  dsimp only
  repeat' split
  all_goals first | exact h1 | exact Nat.le_of_eq h2 | exact Nat.le_refl _

theorem walk_computed (ho : ∀ F, ∀ u ∈ (env.outer F).uses, u ∉ blk) : ∀ (fuel : Nat) (todo : Todo C)
    (d : List (Item C)) (needed : Option Nat) (cs : List Nat), todo.length ≤ fuel → TOrd blk us todo →
    Computed blk us (srcIds todo) d → Computed blk us [] (walk env fuel todo d needed cs) := by
  intro fuel
  induction fuel with
  | zero =>
    intro todo d needed cs hlen ht h
    have : todo = [] := List.length_eq_zero_iff.mp (by omega)
    subst this
    simp only [walk]
    exact finish_computed ho h needed
  | succ fuel ih =>
    intro todo d needed cs hlen ht h
    cases todo with
    | nil =>
      simp only [walk]
      exact finish_computed ho h needed
    | cons p todo =>
      obtain ⟨node, k⟩ := p
      have hlen' : todo.length ≤ fuel := by simpa using hlen
      by_cases hk : k = .stub
      · simp only [walk, if_pos hk]
        exact ih todo _ _ _ hlen' ht.2.2 (emit_computed ht h)
      · have hgo := fun needed cs => ih todo _ needed cs hlen' ht.2.2 (emit_computed ht h)
        cases needed with
        | none =>
          rw [walk_none hk]
          split <;> exact hgo _ _
        | some F =>
          by_cases hid : node.id = F
          · subst hid
            rw [walk_same hk]
            split <;> exact hgo _ _
          · have hgo' := fun avail needed cs' =>
              ih (rematerializeOrMove env F node cs avail todo d).1 _ needed cs'
              (Nat.le_trans (remat_len F node cs avail todo d) hlen')
              (remat_computed (cs := cs) (avail := avail) ho ht h hid).1.2.2
              (emit_computed (remat_computed (cs := cs) (avail := avail) ho ht h hid).1
                (remat_computed ho ht h hid).2)
            cases hd : destroys node todo with
            | none =>
              rw [walk_needed hk _ _ _ _ hid hd]
              split
              · exact hgo _ _
              · split
                · exact hgo _ _
                · exact hgo' _ _ _
            | some t =>
              rw [walk_destroy hk _ _ _ _ hid hd]
              split <;> exact hgo' _ _ _

theorem plain_srcIds (r : List (Node C)) : srcIds (r.map fun n => (n, Mark.plain)) = idsOf r := by
  induction r with
  | nil => rfl
  | cons x xs ih => simp [srcIds, ih, idsOf]

theorem plain_tord (r : List (Node C)) (hu : ∀ x ∈ r, us x.id = x.uses)
    (h : ∀ l1 x l2, r.reverse = l1 ++ x :: l2 → ∀ u ∈ x.uses, u ∈ blk → u ∈ idsOf l1) :
    TOrd blk us (r.map fun n => (n, Mark.plain)) := by
  induction r with
  | nil => trivial
  | cons x xs ih =>
    refine ⟨hu x (by simp), ?_, ih (fun y hy => hu y (by simp [hy])) ?_⟩
    · intro u hx hb
      rw [plain_srcIds]
      have := h xs.reverse x [] (by simp) u hx hb
      simpa [idsOf] using this
    · intro l1 y l2 e
      exact h l1 y (l2 ++ [x]) (by rw [List.reverse_cons, e]; simp)

theorem fixFlags_computed (ho : ∀ F, ∀ u ∈ (env.outer F).uses, u ∉ blk) (hu : ∀ x ∈ l, us x.id = x.uses)
    (h : ∀ l1 x l2, l = l1 ++ x :: l2 → ∀ u ∈ x.uses, u ∈ blk → u ∈ idsOf l1) :
    Computed blk us [] (fixFlags env l) := by
  unfold fixFlags
  refine walk_computed ho _ _ _ _ _ (by simp) ?_ trivial
  exact plain_tord _ (by simpa using hu) (by simpa using h)
end

end Verif.Lemmas.BeFlags
