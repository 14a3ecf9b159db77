import Verif.Spec.Alias

/-
Model of the alias analysis, ir/ana/irmemory.c:76-475.

Simplifications: nodes are numbered and described by `Program`; `long` has 64
bits; the loops over operands take as many steps as fit into the number of the
node (operands have smaller numbers), the loop over pointer types takes at most
`derefs` steps. `none` stands for a failed assertion, an overflow of a signed
number or a loop that does not end. Options are four flags.
-/

namespace Verif.Model.Alias

open Spec.Alias

/-- include/libfirm/irmemory.h:29-33 -/
inductive Rel where
  | no | may | sure
deriving DecidableEq, Repr

/-- include/libfirm/irmemory.h:42-52 -/
structure Options where
  always : Bool := false
  typeBased : Bool := false
  byteMayAlias : Bool := false
  never : Bool := false

/-- Range of `long`. -/
def isLong (v : Int) : Bool := -(2 ^ 63 : Int) ≤ v && v < 2 ^ 63

/-- A signed addition, undefined if it overflows. -/
def addLong (a b : Int) : Option Int := if isLong (a + b) then some (a + b) else none

/-- Conversion to `unsigned long`. -/
def ulong (v : Int) : Nat := (v % 2 ^ 64).toNat

/-- address_info, ir/ana/irmemory.c:240-245 -/
structure Info where
  base : Nat
  sym : Option Nat
  offset : Int
  hasConst : Bool
deriving DecidableEq

/-- The loop of get_address_info, ir/ana/irmemory.c:247-295; the record is the
state of the local variables, `base` is `addr`. -/
def info (p : Program) : Nat → Info → Option Info
  | 0, _ => none
  | fuel + 1, s =>
    match p.op s.base with
    | .add l r =>
      let (ptr, int) := if p.ref l then (l, r) else (r, l)
      match p.op int with
      | .const v =>
        if isLong v then
          match addLong s.offset v with
          | some o => info p fuel { s with base := ptr, offset := o }
          | none => none
        else
          match s.sym with
          | none => info p fuel { s with base := ptr, sym := some int }
          | some _ => info p fuel { s with base := ptr, hasConst := false }
      | _ =>
        match s.sym with
        | none => info p fuel { s with base := ptr, sym := some int }
        | some _ => info p fuel { s with base := ptr, hasConst := false }
    | .sub l _ => info p fuel { s with base := l, hasConst := false }
    | _ => some s

/-- get_address_info, ir/ana/irmemory.c:247-295 -/
def addressInfo (p : Program) (a : Nat) : Option Info := info p (a + 1) ⟨a, none, 0, true⟩

/-- The loop of find_base_addr, ir/ana/irmemory.c:84-106: base and the member
next to it. -/
def findBase (p : Program) : Nat → Nat → Option Nat → Option (Nat × Option Nat)
  | 0, _, _ => none
  | fuel + 1, n, ent =>
    match p.op n with
    | .sel q _ => findBase p fuel q ent
    | .member q e =>
      match p.op q with
      | .frame => some (n, ent)
      | _ => findBase p fuel q (some e)
    | _ => some (n, ent)

/-- find_base_addr, ir/ana/irmemory.c:84-106 -/
def baseAddr (p : Program) (n : Nat) : Option (Nat × Option Nat) := findBase p (n + 1) n none

/-- ir_storage_class_class_t without modifiers, ir/ana/irmemory_t.h:31-42 -/
inductive Cls where
  | pointer | globalvar | localvar | argument | tls | malloced | globaladdr | null
deriving DecidableEq, Repr

/-- ir_storage_class_class_t, ir/ana/irmemory_t.h:31-52 -/
structure Class where
  cls : Cls
  nottaken : Bool := false
  prim : Bool := false
  comp : Bool := false
deriving DecidableEq

/-- analyze_entity in classify_pointer, ir/ana/irmemory.c:231-237. An array is
no compound type (ir/tr/type_t.h:350). -/
def ofEntity (c : Cls) (e : Entity) : Class :=
  ⟨c, !e.taken, !e.compound, e.compound⟩

/-- is_Sel(addr) || is_Member(addr), ir/ana/irmemory.c:227 -/
def selects (p : Program) (a : Nat) : Bool :=
  match p.op a with
  | .sel _ _ => true
  | .member _ _ => true
  | _ => false

/-- classify_pointer, ir/ana/irmemory.c:189-238. The frame is a Proj. -/
def classify (p : Program) (addr base : Nat) : Class :=
  match p.op base with
  | .address e =>
    ofEntity (if (p.ent e).place = .tls then .tls else .globalvar) (p.ent e)
  | .member _ e =>
    ofEntity (if (p.ent e).place = .param then .argument else .localvar) (p.ent e)
  | .malloc => ⟨.malloced, false, false, selects p addr⟩
  | .const v => ⟨if v = 0 then .null else .globaladdr, false, false, selects p addr⟩
  | _ => ⟨.pointer, false, false, selects p addr⟩

/-- type_contains, ir/ana/irmemory.c:119-141 -/
def typeContains (p : Program) : Nat → Nat → Nat → Bool
  | 0, _, _ => false
  | fuel + 1, t, m =>
    match p.ty t with
    | .array e => e == m || typeContains p fuel e m
    | .compound ms _ => ms.any fun q => q == m || typeContains p fuel q m
    | _ => false

/-- The loop over pointer types in different_types,
ir/ana/irmemory.c:157-160 -/
def deref (p : Program) : Nat → Nat → Nat → Option (Nat × Nat)
  | 0, _, _ => none
  | fuel + 1, t1, t2 =>
    match p.ty t1, p.ty t2 with
    | .pointer u1, .pointer u2 => deref p fuel u1 u2
    | _, _ => some (t1, t2)

/-- is_Class_type -/
def isClass (p : Program) (t : Nat) : Bool :=
  match p.ty t with
  | .compound _ c => c
  | _ => false

/-- different_types, ir/ana/irmemory.c:150-169 -/
def differentTypes (p : Program) (derefs : Nat) (t1 t2 : Nat) : Option Rel :=
  if t1 = t2 then some .may
  else match deref p derefs t1 t2 with
    | none => none
    | some (u1, u2) =>
      if typeContains p (u1 + 1) u1 u2 || typeContains p (u2 + 1) u2 u1 then some .may
      else if isClass p u1 && isClass p u2 && (p.subclass u1 u2 || p.subclass u2 u1) then
        some .may
      else some .no

/-- is_Pointer_type -/
def isPointer (p : Program) (t : Nat) : Bool :=
  match p.ty t with
  | .pointer _ => true
  | _ => false

/-- The type based part of _get_alias_relation,
ir/ana/irmemory.c:432-472 -/
def typeBased (p : Program) (o : Options) (derefs t1 t2 : Nat) : Option Rel :=
  if !o.typeBased then some .may
  else if o.byteMayAlias && (p.tySize t1 == 1 || p.tySize t2 == 1) then some .may
  else if isPointer p t1 != isPointer p t2 then some .no
  else match p.ty t1, p.ty t2 with
    | .prim a1 r1, .prim a2 r2 =>
      if a1 ≠ a2 then some .no
      else if r1 ≠ r2 then some .no
      else differentTypes p derefs t1 t2
    | _, _ => differentTypes p derefs t1 t2

/-- Two offsets from the same base, ir/ana/irmemory.c:326-344 -/
def sameBase (o1 : Int) (s1 : Nat) (o2 : Int) (s2 : Nat) : Rel :=
  let (f, l, s) := if o1 ≤ o2 then (o1, o2, s1) else (o2, o1, s2)
  if (ulong f + s) % 2 ^ 64 ≤ ulong l then .no else .sure

/-- Two constant addresses, ir/ana/irmemory.c:417-425 -/
def globalAddr (o1 : Int) (s1 : Nat) (c1 : Int) (o2 : Int) (s2 : Nat) (c2 : Int) : Option Rel :=
  match addLong o1 c1, addLong o2 c2 with
  | some a1, some a2 =>
    if isLong (a2 - a1) && isLong (-(a2 - a1)) then
      if (a2 - a1).natAbs ≥ max s1 s2 then some .no else some .sure
    else none
  | _, _ => none

/-- What is returned after the classes of the two bases are known,
ir/ana/irmemory.c:380-474 -/
def classes (p : Program) (o : Options) (derefs : Nat)
    (o1 : Int) (b1 : Nat) (m1 : Class) (t1 s1 : Nat)
    (o2 : Int) (b2 : Nat) (m2 : Class) (t2 s2 : Nat) : Option Rel :=
  if (m1.comp || m2.comp) && (m1.prim || m2.prim) then some .no
  else if m1.cls = .pointer ∨ m2.cls = .pointer then
    let other := if m1.cls = .pointer then m2 else m1
    if other.nottaken then some .no
    else if other.cls = .null then some .no
    else typeBased p o derefs t1 t2
  else if m1.cls ≠ m2.cls then some .no
  else match m1.cls, p.op b1, p.op b2 with
    | .globalvar, .address e1, .address e2 => some (if e1 ≠ e2 then .no else .may)
    | .localvar, .member _ e1, .member _ e2 => some (if e1 ≠ e2 then .no else .may)
    | .globaladdr, .const c1, .const c2 => globalAddr o1 s1 c1 o2 s2 c2
    | .malloced, _, _ => some (if b1 = b2 then .sure else .no)
    | _, _, _ => typeBased p o derefs t1 t2

/-- Comparison of the members, ir/ana/irmemory.c:353-378: `some r` is returned,
`none` means to go on with the classes. -/
def entities (p : Program) (b1 : Nat) (ent1 : Option Nat) (b2 : Nat) (ent2 : Option Nat) :
    Option Rel :=
  match ent1, ent2 with
  | some e1, some e2 =>
    if e1 = e2 then (if b1 = b2 then some .sure else none)
    else if (p.ent e1).owner ≠ (p.ent e2).owner then none
    else if !p.union (p.ent e1).owner && !(p.ent e1).bitfield && !(p.ent e2).bitfield then
      some .no
    else none
  | _, _ => none

/-- _get_alias_relation, ir/ana/irmemory.c:297-475 -/
def alias (p : Program) (o : Options) (derefs : Nat) (a1 t1 s1 a2 t2 s2 : Nat) : Option Rel :=
  if a1 = a2 then some .sure
  else if o.always then some .may
  else if o.never then some .no
  else
    match addressInfo p a1, addressInfo p a2 with
    | some i1, some i2 =>
      if i1.base = i2.base ∧ i1.sym = i2.sym ∧ i1.hasConst ∧ i2.hasConst then
        some (sameBase i1.offset s1 i2.offset s2)
      else
        match baseAddr p i1.base, baseAddr p i2.base with
        | some (b1, e1), some (b2, e2) =>
          match entities p b1 e1 b2 e2 with
          | some r => some r
          | none =>
            classes p o derefs i1.offset b1 (classify p i1.base b1) t1 s1
              i2.offset b2 (classify p i2.base b2) t2 s2
        | _, _ => none
    | _, _ => none

end Verif.Model.Alias
