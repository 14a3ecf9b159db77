import Verif.Lemmas.Alias

/-! A program with all kinds of addresses, and one execution of it. Used by the
examples in Props/Alias. -/

namespace Verif.Lemmas.AliasExample

open Spec.Alias Model.Alias Lemmas.Alias

/-- Nodes of the example:
0 a pointer p; 2 p-8; 4 p-4; 24 p+8; 23 another pointer to the same place;
5 an array of structs `arr`; 7 an element `arr[i]`; 8 its member x;
9 a pointer q into the array; 10 q->x; 25 q->y;
11 a struct `g`; 13 its address plus 8; 14 member x of the struct there; 15 g.b;
16 a second name of the variable 17;
18 the constant address 4096; 19 4096+i; 20 4097; 21 member y of the struct at 4096; 22 4100. -/
def op : Nat → Op
  | 0 => .proj
  | 1 => .const (-8)
  | 2 => .add 0 1
  | 3 => .const (-4)
  | 4 => .add 0 3
  | 5 => .address 0
  | 6 => .other
  | 7 => .sel 5 6
  | 8 => .member 7 1
  | 9 => .proj
  | 10 => .member 9 1
  | 11 => .address 3
  | 12 => .const 8
  | 13 => .add 11 12
  | 14 => .member 13 1
  | 15 => .member 11 4
  | 16 => .address 5
  | 17 => .address 6
  | 18 => .const 4096
  | 19 => .add 18 6
  | 20 => .const 4097
  | 21 => .member 18 2
  | 22 => .const 4100
  | 23 => .proj
  | 24 => .add 0 12
  | 25 => .member 9 2
  | _ => .other

/-- Entities: 0 arr, 1 x, 2 y, 3 g, 4 b, 5 second name of 6. -/
def ent : Nat → Entity
  | 0 => { array := true }
  | 1 => { owner := 10, offset := 0, size := 4 }
  | 2 => { owner := 10, offset := 4, size := 4 }
  | 3 => { compound := true, taken := false }
  | 4 => { owner := 11, offset := 8, size := 8 }
  | 5 => { alias := some 6 }
  | _ => {}

def ref (n : Nat) : Bool := [0, 2, 4, 5, 7, 8, 9, 10, 11, 13, 14, 15, 16, 17, 18, 19, 20, 21, 22, 23, 24, 25].contains n

/-- Types: 0 int, 1 pointer to int, 2 a struct with such a pointer, 3 float. -/
def ty : Nat → Ty
  | 0 => .prim 0 false
  | 1 => .pointer 0
  | 2 => .compound [1] false
  | 3 => .prim 1 false
  | _ => .other

def prog : Program where
  op := op
  ref := ref
  ent := ent
  ownerSize t := if t = 10 then 8 else 16
  union _ := false
  ty := ty
  tySize _ := 4
  subclass _ _ := false

def loc : Nat → Loc 64
  | 0 => ⟨.foreign 0, 16⟩
  | 1 => ⟨.abs, -8⟩
  | 2 => ⟨.foreign 0, 8⟩
  | 3 => ⟨.abs, -4⟩
  | 4 => ⟨.foreign 0, 12⟩
  | 5 => ⟨.var 0, 0⟩
  | 6 => ⟨.foreign 1, 0⟩
  | 7 => ⟨.var 0, 8⟩
  | 8 => ⟨.var 0, 8⟩
  | 9 => ⟨.var 0, 8⟩
  | 10 => ⟨.var 0, 8⟩
  | 11 => ⟨.var 3, 0⟩
  | 12 => ⟨.abs, 8⟩
  | 13 => ⟨.var 3, 8⟩
  | 14 => ⟨.var 3, 8⟩
  | 15 => ⟨.var 3, 8⟩
  | 16 => ⟨.var 6, 0⟩
  | 17 => ⟨.var 6, 0⟩
  | 18 => ⟨.abs, 4096⟩
  | 19 => ⟨.abs, 4097⟩
  | 20 => ⟨.abs, 4097⟩
  | 21 => ⟨.abs, 4100⟩
  | 22 => ⟨.abs, 4100⟩
  | 23 => ⟨.foreign 0, 16⟩
  | 24 => ⟨.foreign 0, 24⟩
  | 25 => ⟨.var 0, 12⟩
  | _ => ⟨.foreign 1, 0⟩

def int : Nat → BitVec 64
  | 1 => -8
  | 3 => -4
  | 6 => 1
  | 12 => 8
  | 18 => 4096
  | 20 => 4097
  | 22 => 4100
  | _ => 0

theorem root_eq (e : Nat) : prog.root e = if e = 5 then 6 else e := by
  rcases e with _|_|_|_|_|_|e <;> rfl

theorem member_cases {n q e : Nat} (h : prog.IsMember n q e) :
    (n, q, e) ∈ [(8, 7, 1), (10, 9, 1), (14, 13, 1), (15, 11, 4), (21, 18, 2), (25, 9, 2)] := by
  have h1 := h.1
  rcases n with _|_|_|_|_|_|_|_|_|_|_|_|_|_|_|_|_|_|_|_|_|_|_|_|_|_|n
  all_goals first | (injection h1 with h1 h2; subst h1 h2; decide) | exact nomatch h1

def exec : Exec prog 64 where
  loc := loc
  int := int
  const_int := by
    intro n v h
    rcases n with _|_|_|_|_|_|_|_|_|_|_|_|_|_|_|_|_|_|_|_|_|_|_|_|_|_|n
    all_goals first | (injection h with h; subst h; rfl) | exact nomatch h
  add := by
    intro n l r h
    rcases n with _|_|_|_|_|_|_|_|_|_|_|_|_|_|_|_|_|_|_|_|_|_|_|_|_|_|n
    all_goals first | (injection h with h1 h2; subst h1 h2; decide) | exact nomatch h
  sub := by
    intro n l r h
    rcases n with _|_|_|_|_|_|_|_|_|_|_|_|_|_|_|_|_|_|_|_|_|_|_|_|_|_|n
    all_goals exact nomatch h
  sel := by
    intro n l r h
    rcases n with _|_|_|_|_|_|_|_|_|_|_|_|_|_|_|_|_|_|_|_|_|_|_|_|_|_|n
    all_goals first | (injection h with h1 h2; subst h1 h2; exact ⟨8, by decide⟩) | exact nomatch h
  member := by
    intro n q e h
    have h := member_cases h
    simp only [List.mem_cons, Prod.mk.injEq, List.not_mem_nil, or_false] at h
    rcases h with ⟨h1, h2, h3⟩ | ⟨h1, h2, h3⟩ | ⟨h1, h2, h3⟩ | ⟨h1, h2, h3⟩ | ⟨h1, h2, h3⟩ | ⟨h1, h2, h3⟩ <;>
      subst h1 h2 h3 <;> decide
  local_var := by
    intro n q e h hq
    rcases n with _|_|_|_|_|_|_|_|_|_|_|_|_|_|_|_|_|_|_|_|_|_|_|_|_|_|n
    all_goals first | (injection h with h1 h2; subst h1 h2; exact nomatch hq) | exact nomatch h
  address := by
    intro n e h
    rcases n with _|_|_|_|_|_|_|_|_|_|_|_|_|_|_|_|_|_|_|_|_|_|_|_|_|_|n
    all_goals first | (injection h with h; subst h; rfl) | exact nomatch h
  malloc := by
    intro n h
    rcases n with _|_|_|_|_|_|_|_|_|_|_|_|_|_|_|_|_|_|_|_|_|_|_|_|_|_|n
    all_goals exact nomatch h
  null := by
    intro n h
    rcases n with _|_|_|_|_|_|_|_|_|_|_|_|_|_|_|_|_|_|_|_|_|_|_|_|_|_|n
    all_goals first | (injection h with h; exact absurd h (by decide)) | exact nomatch h
  const := by
    intro n v hv h
    rcases n with _|_|_|_|_|_|_|_|_|_|_|_|_|_|_|_|_|_|_|_|_|_|_|_|_|_|n
    all_goals first | (injection h with h; subst h; rfl) | exact nomatch h
  unknown := by
    intro n h e he
    rw [root_eq] at he
    have key : (loc n).obj = .foreign 0 ∨ (loc n).obj = .foreign 1 ∨ (loc n).obj = .var 0 := by
      rcases n with _|_|_|_|_|_|_|_|_|_|_|_|_|_|_|_|_|_|_|_|_|_|_|_|_|_|n
      all_goals first
        | exact Or.inl rfl
        | exact Or.inr (Or.inl rfl)
        | exact Or.inr (Or.inr rfl)
        | (rcases h with h | h | h <;> exact nomatch h)
    rcases key with hk | hk | hk
    · rw [hk] at he; exact nomatch he
    · rw [hk] at he; exact nomatch he
    · rw [hk] at he
      injection he with he
      split at he
      · exact absurd he (by decide)
      · subst he; rfl
  aggregate := by
    intro n q h e he
    rw [root_eq] at he
    have key : (loc q).obj = .abs ∨ (loc q).obj = .var 0 ∨ (loc q).obj = .var 3 := by
      rcases h with ⟨i, h⟩ | ⟨e, h⟩
      · rcases n with _|_|_|_|_|_|_|_|_|_|_|_|_|_|_|_|_|_|_|_|_|_|_|_|_|_|n
        all_goals first | (injection h with h1 h2; subst h1 h2; decide) | exact nomatch h
      · have h := member_cases h
        simp only [List.mem_cons, Prod.mk.injEq, List.not_mem_nil, or_false] at h
        rcases h with ⟨_, h2, _⟩ | ⟨_, h2, _⟩ | ⟨_, h2, _⟩ | ⟨_, h2, _⟩ | ⟨_, h2, _⟩ | ⟨_, h2, _⟩ <;>
          subst h2 <;> decide
    rcases key with hk | hk | hk
    · rw [hk] at he; exact nomatch he
    · rw [hk] at he
      injection he with he
      split at he
      · exact absurd he (by decide)
      · subst he; exact Or.inr rfl
    · rw [hk] at he
      injection he with he
      split at he
      · exact absurd he (by decide)
      · subst he; exact Or.inl rfl
  instances := by
    intro n1 q1 e1 n2 q2 e2 h1 h2 ho
    have h1 := member_cases h1
    have h2 := member_cases h2
    simp only [List.mem_cons, Prod.mk.injEq, List.not_mem_nil, or_false] at h1 h2
    rcases h1 with ⟨_, a1, b1⟩ | ⟨_, a1, b1⟩ | ⟨_, a1, b1⟩ | ⟨_, a1, b1⟩ | ⟨_, a1, b1⟩ | ⟨_, a1, b1⟩ <;>
    rcases h2 with ⟨_, a2, b2⟩ | ⟨_, a2, b2⟩ | ⟨_, a2, b2⟩ | ⟨_, a2, b2⟩ | ⟨_, a2, b2⟩ | ⟨_, a2, b2⟩ <;>
    subst a1 b1 a2 b2 <;>
    first
      | exact Or.inl rfl
      | exact Or.inr (disjoint_obj (by decide))
      | exact absurd ho (by decide)

/-- The nodes on the way from an address to its base. -/
def chain (p : Program) : Nat → Nat → List Nat
  | 0, _ => []
  | fuel + 1, n => n :: match p.op n with
    | .add l r => chain p fuel (if p.ref l then l else r)
    | .sub l _ => chain p fuel l
    | .sel q _ => chain p fuel q
    | .member q _ => chain p fuel q
    | _ => []

theorem derived_chain {p : Program} {a m : Nat} (h : p.Derived a m)
    (hlt : ∀ n, ∀ q ∈ (chain p 2 n).tail, q < n) : ∀ fuel, a < fuel → m ∈ chain p fuel a := by
  induction h with
  | refl => intro fuel hf; cases fuel with
    | zero => omega
    | succ fuel => simp [chain]
  | @addL n l r m h1 h2 _ ih =>
    intro fuel hf
    cases fuel with
    | zero => omega
    | succ fuel =>
      have := hlt n l (by simp [chain, h1, h2])
      simp [chain, h1, h2, ih fuel (by omega)]
  | @addR n l r m h1 h2 _ ih =>
    intro fuel hf
    cases fuel with
    | zero => omega
    | succ fuel =>
      have := hlt n r (by simp [chain, h1, h2])
      simp [chain, h1, h2, ih fuel (by omega)]
  | @sub n l r m h1 _ ih =>
    intro fuel hf
    cases fuel with
    | zero => omega
    | succ fuel =>
      have := hlt n l (by simp [chain, h1])
      simp [chain, h1, ih fuel (by omega)]
  | @sel n q i m h1 _ ih =>
    intro fuel hf
    cases fuel with
    | zero => omega
    | succ fuel =>
      have := hlt n q (by simp [chain, h1])
      simp [chain, h1, ih fuel (by omega)]
  | @member n q e m h1 _ ih =>
    intro fuel hf
    cases fuel with
    | zero => omega
    | succ fuel =>
      have := hlt n q (by simp [chain, h1.1])
      simp [chain, h1.1, ih fuel (by omega)]

theorem chain_lt (n : Nat) : ∀ q ∈ (chain prog 2 n).tail, q < n := by
  rcases n with _|_|_|_|_|_|_|_|_|_|_|_|_|_|_|_|_|_|_|_|_|_|_|_|_|_|n
  all_goals first | decide | (intro q hq; exact nomatch hq)

theorem derived {a m : Nat} (h : prog.Derived a m) : m ∈ chain prog (a + 1) a :=
  derived_chain h chain_lt _ (by omega)

theorem bytes_mono {w : Nat} {l b : Loc w} {s t : Nat} (h : s ≤ t) (hb : Bytes l s b) : Bytes l t b := by
  obtain ⟨h1, k, h2, h3⟩ := hb
  exact ⟨h1, k, by omega, h3⟩

/-- An access that does not use the null pointer and whose size is the size of the member. -/
theorem access (a s : Nat) (h1 : (loc a).obj ≠ .null)
    (h2 : ∀ t ∈ [(8, 7, 1), (10, 9, 1), (14, 13, 1), (15, 11, 4), (21, 18, 2), (25, 9, 2)],
      t.1 ∈ chain prog (a + 1) a → t.1 = a ∧ s ≤ (ent t.2.2).size) : exec.Access a s := by
  refine ⟨h1, ?_⟩
  intro m q e hd hm b hb
  obtain ⟨h3, h4⟩ := h2 _ (member_cases hm) (derived hd)
  simp only at h3 h4
  subst h3
  exact bytes_mono h4 hb

end Verif.Lemmas.AliasExample
