/-!
# Specification: floating point registers and the x87 register stack

Virtual code names its operands: eight registers, any of which can be an operand or the result.  The
machine has a stack of at most eight values; operations use the top, and at most one further place.
An instruction that meets an empty place or a full stack has no result.
-/
namespace Verif.Spec.X87

variable {V : Type}

/-- What the nodes compute. -/
structure Sem (V : Type) where
  load : Nat → V
  un : Nat → V → V
  bin : Nat → V → V → V

/-- What can be seen: values that are stored, values that are compared. -/
inductive Event (V : Type) where
  | store (n : Nat) (v : V)
  | test (n : Nat) (v : V)
  | compare (n : Nat) (a b : V)
  deriving DecidableEq, Repr

/-! ### Virtual code -/

/-- A node, with its registers. -/
inductive Op where
  | load (n out : Nat)
  /-- also an operation whose second operand is in memory -/
  | unop (n a out : Nat)
  | binop (n a b out : Nat)
  | store (n a bits : Nat)
  /-- a store that takes its operand from the stack -/
  | storePop (n a : Nat)
  | test (n a : Nat)
  | compare (n a b : Nat) (status : Bool)
  | copy (a out : Nat)
  /-- all at once: pairs of operand and result -/
  | perm (l : List (Nat × Nat))
  | keep (args : List Nat)
  deriving DecidableEq, Repr

def upd (R : Nat → V) (r : Nat) (v : V) : Nat → V := fun x => if x = r then v else R x

def permRegs (R : Nat → V) (l : List (Nat × Nat)) : Nat → V := fun x =>
  match l.find? fun p => p.2 == x with
  | some p => R p.1
  | none => R x

def Op.step (sem : Sem V) (R : Nat → V) : Op → List (Event V) × (Nat → V)
  | .load n out => ([], upd R out (sem.load n))
  | .unop n a out => ([], upd R out (sem.un n (R a)))
  | .binop n a b out => ([], upd R out (sem.bin n (R a) (R b)))
  | .store n a _ => ([.store n (R a)], R)
  | .storePop n a => ([.store n (R a)], R)
  | .test n a => ([.test n (R a)], R)
  | .compare n a b _ => ([.compare n (R a) (R b)], R)
  | .copy a out => ([], upd R out (R a))
  | .perm l => ([], permRegs R l)
  | .keep _ => ([], R)

def runOps (sem : Sem V) : (Nat → V) → List Op → List (Event V) × (Nat → V)
  | R, [] => ([], R)
  | R, o :: os =>
    let (e, R1) := o.step sem R
    let (es, R2) := runOps sem R1 os
    (e ++ es, R2)

def Op.uses : Op → List Nat
  | .load _ _ => []
  | .unop _ a _ => [a]
  | .binop _ a b _ => [a, b]
  | .store _ a _ => [a]
  | .storePop _ a => [a]
  | .test _ a => [a]
  | .compare _ a b _ => [a, b]
  | .copy a _ => [a]
  | .perm l => l.map (·.1)
  | .keep args => args

def Op.defs : Op → List Nat
  | .load _ out => [out]
  | .unop _ _ out => [out]
  | .binop _ _ _ out => [out]
  | .copy _ out => [out]
  | .perm l => l.map (·.2)
  | _ => []

/-! ### The machine -/

inductive Insn where
  | fld (n : Nat)
  | fxch (i : Nat)
  | fdup (i : Nat)
  /-- `fstp st(i)`, the top replaces a value -/
  | fpop (i : Nat)
  | op1 (n : Nat)
  /-- an operation on the top and st(i): `reverse` exchanges the operands, `inReg` puts the result into
  st(i) -/
  | op2 (n i : Nat) (reverse inReg pop : Bool)
  | fst (n : Nat) (pop : Bool)
  /-- a store of all 80 bits, from which the value is loaded again -/
  | fstpFld (n : Nat)
  | ftst (n : Nat)
  /-- a comparison of the top and st(i), or the other way round -/
  | fucom (n i : Nat) (reverse pop : Bool)
  | fucompp (n : Nat) (reverse : Bool)
  | emms
  deriving DecidableEq, Repr

def exec1 (sem : Sem V) (s : List V) : Insn → Option (List (Event V) × List V)
  | .fld n => if s.length < 8 then some ([], sem.load n :: s) else none
  | .fxch i =>
    match s[0]?, s[i]? with
    | some a, some b => some ([], (s.set 0 b).set i a)
    | _, _ => none
  | .fdup i =>
    match s[i]? with
    | some v => if s.length < 8 then some ([], v :: s) else none
    | none => none
  | .fpop i =>
    match s[0]?, s[i]? with
    | some a, some _ => some ([], (s.set i a).tail)
    | _, _ => none
  | .op1 n =>
    match s with
    | a :: r => some ([], sem.un n a :: r)
    | [] => none
  | .op2 n i reverse inReg pop =>
    match s[0]?, s[i]? with
    | some a, some b =>
      let v := if reverse then sem.bin n b a else sem.bin n a b
      let s' := s.set (if inReg then i else 0) v
      some ([], if pop then s'.tail else s')
    | _, _ => none
  | .fst n pop =>
    match s with
    | a :: r => some ([.store n a], if pop then r else a :: r)
    | [] => none
  | .fstpFld n =>
    match s with
    | a :: r => some ([.store n a], a :: r)
    | [] => none
  | .ftst n =>
    match s with
    | a :: r => some ([.test n a], a :: r)
    | [] => none
  | .fucom n i reverse pop =>
    match s[0]?, s[i]? with
    | some a, some b =>
      some ([if reverse then .compare n b a else .compare n a b], if pop then s.tail else s)
    | _, _ => none
  | .fucompp n reverse =>
    match s with
    | a :: b :: r => some ([if reverse then .compare n b a else .compare n a b], r)
    | _ => none
  | .emms => some ([], [])

def exec (sem : Sem V) : List V → List Insn → Option (List (Event V) × List V)
  | s, [] => some ([], s)
  | s, i :: is =>
    match exec1 sem s i with
    | none => none
    | some (e, s1) =>
      match exec sem s1 is with
      | none => none
      | some (es, s2) => some (e ++ es, s2)

/-! ### Graphs of blocks -/

structure Block where
  ops : List Op
  /-- the registers that are live at its end -/
  live : List Nat
  succs : List Nat
  deriving DecidableEq, Repr

/-- A path through the graph. -/
def Path (g : List Block) : List Nat → Prop
  | [] => True
  | b :: rest => (∃ B, g[b]? = some B ∧ ∀ c, rest.head? = some c → c ∈ B.succs) ∧ Path g rest

def runPath (sem : Sem V) (g : List Block) : (Nat → V) → List Nat → List (Event V) × (Nat → V)
  | R, [] => ([], R)
  | R, b :: rest =>
    match g[b]? with
    | none => ([], R)
    | some B =>
      let (e, R1) := runOps sem R B.ops
      let (es, R2) := runPath sem g R1 rest
      (e ++ es, R2)

/-- The code of the blocks along a path; a block without code has no result. -/
def execPath (sem : Sem V) (code : Nat → Option (List Insn)) : List V → List Nat →
    Option (List (Event V) × List V)
  | s, [] => some ([], s)
  | s, b :: rest =>
    match code b with
    | none => none
    | some c =>
      match exec sem s c with
      | none => none
      | some (e, s1) =>
        match execPath sem code s1 rest with
        | none => none
        | some (es, s2) => some (e ++ es, s2)

/-! ### Programs -/

/-- The register is needed before the nodes: one of them uses it before another writes it, or no node
writes it and it is live at the end. -/
def Needed (live : List Nat) : List Op → Nat → Prop
  | [], r => r ∈ live
  | o :: os, r => r ∈ o.uses ∨ (r ∉ o.defs ∧ Needed live os r)

/-- What a node must satisfy, given the registers needed after it: results are needed and are registers
of the machine; the operand of a store that pops is not needed any more; the operands of a permutation
are different, its results too, and an operand is needed only if it is a result. -/
def Wf (needed : Nat → Prop) (o : Op) : Prop :=
  (∀ r ∈ o.defs, needed r ∧ r < 8) ∧
    match o with
    | .storePop _ a => ¬needed a
    | .perm l => (l.map (·.1)).Nodup ∧ (l.map (·.2)).Nodup ∧ ∀ r ∈ l.map (·.1), needed r → r ∈ l.map (·.2)
    | _ => True

def WfAll (live : List Nat) : List Op → Prop
  | [] => True
  | o :: os => Wf (Needed live os) o ∧ WfAll live os

/-- A graph of blocks with registers: the first is the start, before which nothing is needed and to which
there is no edge; what a block needs is live at the end of those before it; a block with two others
before it is the only one after each of them, and finds the same registers live. -/
structure Program (g : List Block) : Prop where
  start : ∃ B, g[0]? = some B ∧ ∀ r, ¬Needed B.live B.ops r
  nodes : ∀ (b : Nat) B, g[b]? = some B → WfAll B.live B.ops
  edge : ∀ (b : Nat) B, g[b]? = some B → ∀ s ∈ B.succs, s ≠ 0 ∧
    ∃ S, g[s]? = some S ∧ ∀ r, Needed S.live S.ops r → r ∈ B.live
  once : ∀ (b : Nat) B, g[b]? = some B → B.succs.Nodup
  merge : ∀ (b b' : Nat) B B', g[b]? = some B → g[b']? = some B' → b ≠ b' → ∀ s ∈ B.succs, s ∈ B'.succs →
    B.succs = [s] ∧ ∀ r, r ∈ B.live ↔ r ∈ B'.live

end Verif.Spec.X87
