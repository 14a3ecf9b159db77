import Verif.Spec.BitTree
/-!
# Model: operands known equal or complementary, and chains of bit operations

`walk_equality` with `replace_until_other_user`, and `walk_chains`, ir/opt/reassoc.c, on trees (Spec/BitTree).  An atom is a node with several users or one that
is no bit operation: the recursion stops there (875-877).  A node compared with `a` and `b` is an atom: both are used by the Eor (or by the Not below it) as well.
-/
namespace Verif.Model.EorEquality

open Verif.Spec.BitTree

/-- `match_result_t`, ir/opt/reassoc.c:851-855 -/
inductive Res
  | notFound | first | second
  deriving DecidableEq, Repr

/-- `match_result_t ret = replace`, ir/opt/reassoc.c:874 -/
def Res.ofBool : Bool → Res
  | true => .first
  | false => .notFound

/-- the variables of the loop -/
structure St where
  a : Nat
  b : Nat
  replace : Bool
  ret : Res
  deriving DecidableEq, Repr

/-- what a call for an operand changes, ir/opt/reassoc.c:901-915 -/
def St.after (s : St) (res : Res) : St :=
  match res with
  | .notFound => s
  | .first => { s with ret := if s.replace then s.ret else .first, replace := true }
  | .second => { a := s.b, b := s.a, ret := if s.replace then s.ret else .second, replace := true }

/-- one operand of a node in the loop of `replace_until_other_user`, ir/opt/reassoc.c:879-917.  The new Not is in the block of its operand. -/
def child (β : Nat → Nat) (needNot : Bool) : Tree → St → Tree × St
  | .atom i, s =>
    if i = s.a then
      if s.replace then (if needNot then .not (β s.b) (.atom s.b) else .atom s.b, s)
      else (.atom i, { a := s.b, b := s.a, replace := true, ret := .second })
    else if i = s.b then
      (.atom i, if s.replace then s else { s with replace := true, ret := .first })
    else (.atom i, s.after (Res.ofBool s.replace))
  | .bin k blk l r, s =>
    let p := child β needNot l { s with ret := Res.ofBool s.replace }
    let q := child β needNot r p.2
    (.bin k blk p.1 q.1, s.after q.2.ret)
  | .not blk x, s =>
    let p := child β needNot x { s with ret := Res.ofBool s.replace }
    (.not blk p.1, s.after p.2.ret)

/-- `replace_until_other_user` for the other operand of the base node: if it is an atom nothing happens, ir/opt/reassoc.c:872-877 -/
def replaceUntil (β : Nat → Nat) (needNot : Bool) (t : Tree) (a b : Nat) (replace : Bool) : Tree :=
  match t with
  | .atom i => .atom i
  | t => (child β needNot t ⟨a, b, replace, .notFound⟩).1

/-- what is known of an operand of the base node: the tree, and the operands if it is an Eor (`false`) or the Not of one (`true`), shared or not -/
structure Arg where
  tree : Tree
  eor : Option (Bool × Nat × Nat)

/-- the rest of `walk_equality`, ir/opt/reassoc.c:955-978; `isConst` and `notOf` describe the atoms -/
def equalityOn (β : Nat → Nat) (isConst : Nat → Bool) (notOf : Nat → Option Nat) (needNot : Bool) (a b : Nat) (r : Tree) : Tree :=
  if a = b then r
  else if isConst b then replaceUntil β needNot r a b true
  else if isConst a then replaceUntil β needNot r b a true
  else
    let p := match notOf a with
      | some a' => (!needNot, a')
      | none => (needNot, a)
    let q := match notOf b with
      | some b' => (!p.1, b')
      | none => (p.1, b)
    replaceUntil β q.1 r p.2 q.2 false

/-- `walk_equality`, ir/opt/reassoc.c:929-979: the operands of an And or Or afterwards -/
def walkEquality (β : Nat → Nat) (isConst : Nat → Bool) (notOf : Nat → Option Nat) (isAnd : Bool) (l r : Arg) : Tree × Tree :=
  match l.eor, r.eor with
  | some (true, a, b), _ => (l.tree, equalityOn β isConst notOf (!isAnd) a b r.tree)
  | _, some (true, a, b) => (equalityOn β isConst notOf (!isAnd) a b l.tree, r.tree)
  | _, some (false, a, b) => (equalityOn β isConst notOf isAnd a b l.tree, r.tree)
  | some (false, a, b), none => (l.tree, equalityOn β isConst notOf isAnd a b r.tree)
  | none, none => (l.tree, r.tree)

/-- `is_bitop`, ir/opt/reassoc.c:575-578 -/
def isBitop (bitAtom : Nat → Bool) : Tree → Bool
  | .atom i => bitAtom i
  | _ => true

/-- the first half of `walk_chains`, ir/opt/reassoc.c:1965-1990: the node in `a`, the left operand -/
def chainLeft (β : Nat → Nat) (bitAtom : Nat → Bool) : Tree → Option Tree
  | .bin k blk (.bin k' blk' l r) b =>
    if k' = k ∧ isBitop bitAtom b then
      if !isBitop bitAtom l then
        if l.blk β = b.blk β then some (.bin k blk (.bin k' blk' b r) l) else none
      else if !isBitop bitAtom r then
        if r.blk β = b.blk β then some (.bin k blk (.bin k' blk' l b) r) else none
      else none
    else none
  | _ => none

/-- the second half, ir/opt/reassoc.c:1992-2017 -/
def chainRight (β : Nat → Nat) (bitAtom : Nat → Bool) : Tree → Option Tree
  | .bin k blk a (.bin k' blk' l r) =>
    if k' = k ∧ isBitop bitAtom a then
      if !isBitop bitAtom l then
        if l.blk β = a.blk β then some (.bin k blk l (.bin k' blk' a r)) else none
      else if !isBitop bitAtom r then
        if r.blk β = a.blk β then some (.bin k blk r (.bin k' blk' l a)) else none
      else none
    else none
  | _ => none

/-- `walk_chains`, ir/opt/reassoc.c:1954-2021 -/
def walkChains (β : Nat → Nat) (bitAtom : Nat → Bool) (t : Tree) : Option Tree :=
  match chainLeft β bitAtom t with
  | some t' => some t'
  | none => chainRight β bitAtom t

/-- trees that `do_chaining`, ir/opt/reassoc.c:2026-2064, can make: steps at any node, in any order -/
inductive Chained (β : Nat → Nat) (bitAtom : Nat → Bool) : Tree → Tree → Prop
  | refl (t) : Chained β bitAtom t t
  | step {t t' t''} : walkChains β bitAtom t = some t' → Chained β bitAtom t' t'' → Chained β bitAtom t t''
  | left {k blk l l' r t} : Chained β bitAtom l l' → Chained β bitAtom (.bin k blk l' r) t → Chained β bitAtom (.bin k blk l r) t
  | right {k blk l r r' t} : Chained β bitAtom r r' → Chained β bitAtom (.bin k blk l r') t → Chained β bitAtom (.bin k blk l r) t
  | under {blk x x' t} : Chained β bitAtom x x' → Chained β bitAtom (.not blk x') t → Chained β bitAtom (.not blk x) t

end Verif.Model.EorEquality
