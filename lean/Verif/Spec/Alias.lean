/-
Meaning of memory addresses: every address points into an object, at an
offset counted in bytes. Written without looking at the alias analysis.
-/

namespace Verif.Spec.Alias

/-- Nodes that compute addresses. `malloc` is the result of a call of a
malloc-like function, `proj` any other Proj, `other` any other node. -/
inductive Op where
  | add (l r : Nat)
  | sub (l r : Nat)
  | sel (ptr index : Nat)
  | member (ptr ent : Nat)
  | address (ent : Nat)
  | const (v : Int)
  | frame
  | malloc
  | proj
  | other
deriving DecidableEq, Repr

/-- Where a variable lives. -/
inductive Place where
  | global | tls | localVar | param
deriving DecidableEq, Repr

/-- An entity: a variable or a member of a compound type. -/
structure Entity where
  /-- the type that owns the member -/
  owner : Nat := 0
  /-- offset and size in bytes inside the owner -/
  offset : Nat := 0
  size : Nat := 0
  bitfield : Bool := false
  place : Place := .global
  /-- the address is used for something else than accesses -/
  taken : Bool := true
  /-- the type of the variable is a class, struct or union -/
  compound : Bool := false
  /-- the type of the variable is an array -/
  array : Bool := false
  /-- the entity is another name of the given one -/
  alias : Option Nat := none

/-- Types of objects in memory. -/
inductive Ty where
  | prim (arithmetic : Nat) (ref : Bool)
  | pointer (to : Nat)
  | array (elem : Nat)
  | compound (members : List Nat) (cls : Bool)
  | other
deriving DecidableEq, Repr

structure Program where
  op : Nat → Op
  /-- the mode of the node is a reference mode -/
  ref : Nat → Bool
  ent : Nat → Entity
  /-- size of a compound type, and whether it is a union -/
  ownerSize : Nat → Nat
  union : Nat → Bool
  ty : Nat → Ty
  tySize : Nat → Nat
  subclass : Nat → Nat → Bool

/-- The variable behind a name. -/
def Program.root (p : Program) (e : Nat) : Nat := ((p.ent e).alias).getD e

/-- Objects in memory. `foreign` are objects that are made elsewhere, `abs` is
the memory that is accessed with constant addresses. -/
inductive Obj where
  | var (ent : Nat)
  | heap (node : Nat)
  | abs
  | null
  | foreign (k : Nat)
deriving DecidableEq, Repr

structure Loc (w : Nat) where
  obj : Obj
  off : BitVec w
deriving DecidableEq

def Loc.move {w : Nat} (l : Loc w) (d : BitVec w) : Loc w := ⟨l.obj, l.off + d⟩

/-- The byte `b` belongs to the access of `s` bytes at `l`. -/
def Bytes {w : Nat} (l : Loc w) (s : Nat) (b : Loc w) : Prop :=
  b.obj = l.obj ∧ ∃ k, k < s ∧ b.off = l.off + BitVec.ofNat w k

/-- Two accesses have no byte in common. -/
def Disjoint {w : Nat} (l1 : Loc w) (s1 : Nat) (l2 : Loc w) (s2 : Nat) : Prop :=
  ∀ b, ¬ (Bytes l1 s1 b ∧ Bytes l2 s2 b)

/-- The member is selected from something else than the frame, that is, it is
not a local variable. -/
def Program.IsMember (p : Program) (n q e : Nat) : Prop :=
  p.op n = .member q e ∧ p.op q ≠ .frame

/-- Values of address nodes in one execution. -/
structure Exec (p : Program) (w : Nat) where
  loc : Nat → Loc w
  int : Nat → BitVec w
  const_int : ∀ n v, p.op n = .const v → int n = BitVec.ofInt w v
  add : ∀ n l r, p.op n = .add l r →
    loc n = if p.ref l then (loc l).move (int r) else (loc r).move (int l)
  sub : ∀ n l r, p.op n = .sub l r → loc n = (loc l).move (-(int r))
  sel : ∀ n q i, p.op n = .sel q i → ∃ d, loc n = (loc q).move d
  member : ∀ n q e, p.IsMember n q e →
    loc n = (loc q).move (BitVec.ofNat w (p.ent e).offset)
  local_var : ∀ n q e, p.op n = .member q e → p.op q = .frame →
    loc n = ⟨.var (p.root e), 0⟩
  address : ∀ n e, p.op n = .address e → loc n = ⟨.var (p.root e), 0⟩
  malloc : ∀ n, p.op n = .malloc → loc n = ⟨.heap n, 0⟩
  null : ∀ n, p.op n = .const 0 → loc n = ⟨.null, 0⟩
  const : ∀ n v, v ≠ 0 → p.op n = .const v → loc n = ⟨.abs, BitVec.ofInt w v⟩
  /-- a pointer of unknown origin points to no variable whose address is not
  taken -/
  unknown : ∀ n, p.op n = .proj ∨ p.op n = .other ∨ p.op n = .frame →
    ∀ e, (loc n).obj = .var (p.root e) → (p.ent e).taken = true
  /-- members and elements are selected from compound objects and arrays -/
  aggregate : ∀ n q, (∃ i, p.op n = .sel q i) ∨ (∃ e, p.IsMember n q e) →
    ∀ e, (loc q).obj = .var (p.root e) → (p.ent e).compound = true ∨ (p.ent e).array = true
  /-- two objects of the same compound type are the same or do not overlap -/
  instances : ∀ n1 q1 e1 n2 q2 e2, p.IsMember n1 q1 e1 → p.IsMember n2 q2 e2 →
    (p.ent e1).owner = (p.ent e2).owner →
    loc q1 = loc q2 ∨
      Disjoint (loc q1) (p.ownerSize (p.ent e1).owner) (loc q2) (p.ownerSize (p.ent e2).owner)

/-- The address `n` is computed from the pointer `m`. -/
inductive Program.Derived (p : Program) : Nat → Nat → Prop
  | refl (n) : p.Derived n n
  | addL {n l r m} : p.op n = .add l r → p.ref l = true → p.Derived l m → p.Derived n m
  | addR {n l r m} : p.op n = .add l r → p.ref l = false → p.Derived r m → p.Derived n m
  | sub {n l r m} : p.op n = .sub l r → p.Derived l m → p.Derived n m
  | sel {n q i m} : p.op n = .sel q i → p.Derived q m → p.Derived n m
  | member {n q e m} : p.IsMember n q e → p.Derived q m → p.Derived n m

/-- `c` is the sum of the constants that are added on the way from the pointer
`m` to the address `n`. -/
inductive Program.Sum (p : Program) : Nat → Nat → Int → Prop
  | refl (n) : p.Sum n n 0
  | add {n l r q i m c v} : p.op n = .add l r → (q, i) = (if p.ref l then (l, r) else (r, l)) →
      p.op i = .const v → p.Sum q m c → p.Sum n m (v + c)
  | sym {n l r q i m c} : p.op n = .add l r → (q, i) = (if p.ref l then (l, r) else (r, l)) →
      (∀ v, p.op i ≠ .const v) → p.Sum q m c → p.Sum n m c
  | sub {n l r m c} : p.op n = .sub l r → p.Sum l m c → p.Sum n m c

/-- An access of `s` bytes at the node `a` that follows the rules of the
language: it does not use the null pointer and does not leave the member that
was selected. -/
structure Exec.Access {p : Program} {w : Nat} (x : Exec p w) (a s : Nat) : Prop where
  valid : (x.loc a).obj ≠ .null
  inside : ∀ m q e, p.Derived a m → p.IsMember m q e →
    ∀ b, Bytes (x.loc a) s b → Bytes (x.loc m) (p.ent e).size b

/-- The constants stay in the range of offsets. -/
def Program.Small (p : Program) (w a s : Nat) : Prop :=
  ∀ m c, p.Sum a m c → -(2 ^ (w - 1) : Int) ≤ c ∧ c + s ≤ 2 ^ (w - 1)

/-- Members of a struct lie in the struct and do not overlap; operands come
before their users; contained types come before their containers. -/
structure Program.Ok (p : Program) (w : Nat) : Prop where
  inside : ∀ n q e, p.IsMember n q e →
    (p.ent e).offset + (p.ent e).size ≤ p.ownerSize (p.ent e).owner
  apart : ∀ n1 q1 e1 n2 q2 e2, p.IsMember n1 q1 e1 → p.IsMember n2 q2 e2 → e1 ≠ e2 →
    (p.ent e1).owner = (p.ent e2).owner → p.union (p.ent e1).owner = false →
    (p.ent e1).bitfield = false → (p.ent e2).bitfield = false →
    (p.ent e1).offset + (p.ent e1).size ≤ (p.ent e2).offset ∨
    (p.ent e2).offset + (p.ent e2).size ≤ (p.ent e1).offset
  fits : ∀ n q e, p.IsMember n q e → p.ownerSize (p.ent e).owner ≤ 2 ^ w
  globals : ∀ n e, p.op n = .address e → (p.ent e).place = .global ∨ (p.ent e).place = .tls
  locals : ∀ n q e, p.op n = .member q e → p.op q = .frame →
    (p.ent e).place = .localVar ∨ (p.ent e).place = .param
  elems : ∀ t e, p.ty t = .array e → e < t
  parts : ∀ t ms c m, p.ty t = .compound ms c → m ∈ ms → m < t

/-- The node is the address of the variable `e`. -/
def Program.IsVar (p : Program) (n e : Nat) : Prop :=
  p.op n = .address e ∨ ∃ q, p.op n = .member q e ∧ p.op q = .frame

/-- The node selects a member or an element. -/
def Program.Selects (p : Program) (n : Nat) : Prop :=
  (∃ q i, p.op n = .sel q i) ∨ ∃ q e, p.IsMember n q e

/-- Restrictions on an address that are needed because the analysis is wrong
without them. -/
structure Exec.Plain {p : Program} {w : Nat} (x : Exec p w) (a : Nat) : Prop where
  /-- the address is not computed from a variable that is an array -/
  noArray : ∀ b e, p.Derived a b → p.IsVar b e → (p.ent e).array = false
  /-- the address is not computed from a second name of a variable -/
  noAlias : ∀ b e, p.Derived a b → p.IsVar b e → (p.ent e).alias = none
  /-- if something is selected from the result of an addition or subtraction
  then this result does not point into a variable whose address is not taken -/
  noArith : ∀ m k, p.Derived a m → p.Selects m → p.Derived m k →
    ((∃ l r, p.op k = .add l r) ∨ ∃ l r, p.op k = .sub l r) →
    ∀ e, (x.loc k).obj = .var (p.root e) → (p.ent e).taken = true
  /-- only constants are added to a constant address -/
  constAddr : ∀ k v m, p.Derived a k → p.op k = .const v → v ≠ 0 → p.Derived a m → p.Derived m k →
    m = k ∨ ∃ l r c, p.op m = .add l r ∧ p.op (if p.ref l then r else l) = .const c

/-- Constant addresses lie in one copy of the address space. -/
def Program.Window (p : Program) (w : Nat) (lo : Int) (a s : Nat) : Prop :=
  ∀ k v c, p.Sum a k c → p.op k = .const v → lo ≤ v + c ∧ v + c + s ≤ lo + 2 ^ w

/-- A value of type `t` has a part of type `u` (or is one). -/
inductive Program.Has (p : Program) : Nat → Nat → Prop
  | refl (t) : p.Has t t
  | elem {t e u} : p.ty t = .array e → p.Has e u → p.Has t u
  | part {t ms c m u} : p.ty t = .compound ms c → m ∈ ms → p.Has m u → p.Has t u

/-- Accesses of type `t` and `u` may have a byte in common in a strictly typed
language. -/
def Program.Related (p : Program) (t u : Nat) : Prop :=
  p.Has t u ∨ p.Has u t ∨
  ((∃ ms, p.ty t = .compound ms true) ∧ (∃ ms, p.ty u = .compound ms true) ∧
    (p.subclass t u = true ∨ p.subclass u t = true))

end Verif.Spec.Alias
