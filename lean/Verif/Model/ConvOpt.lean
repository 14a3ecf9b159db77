import Verif.Spec.ConvTree
import Verif.Model.IrOptShift
/-!
# Model: conversion optimisation

ir/opt/convopt.c on trees over integer modes.  Nodes of floating point and reference modes, Unknown and Bad are left out, as is the local
optimisation between the rounds, except for the rule for two conversions (`place`).  Recursion over Phis ends: a node on a cycle has a second user
if it can be reached from a conversion outside of the cycle, so the walk stops there.
-/
namespace Verif.Model.ConvOpt

open Verif.Spec Verif.Spec.ConvTree Verif.Model.IrOpt

/-- `get_irn_n_edges(node) > 1` -/
def shared : Tree → Bool
  | .const _ _ => false
  | .leaf _ s _ => s
  | .un _ _ s _ => s
  | .bin _ _ s _ _ => s
  | .shift _ _ s _ _ => s
  | .phi _ s _ _ _ => s
  | .conv _ s _ => s

/-- `is_optimizable_node` for shifts, ir/opt/convopt.c:56-68 -/
def shiftOk (op : ShOp) (m dest : IMode) : Bool :=
  match op with
  | .shl => m.modulo == dest.modulo
  | _ => dest.bits == m.bits && m.modulo == dest.modulo

/-- `is_downconv`, ir/opt/convopt.c:80-85, integer modes -/
def isDownconv (src dest : IMode) : Bool := decide (dest.bits ≤ src.bits)

/-- `smaller_mode`, ir/ir/irmode.c:329-358, integer modes -/
def smallerMode (sm lm : IMode) : Bool :=
  if sm = lm then true
  else if sm.signed then (if lm.signed then decide (sm.bits ≤ lm.bits) else false)
  else if lm.signed then decide (sm.bits < lm.bits)
  else decide (sm.bits ≤ lm.bits)

/-- `get_conv_costs`, ir/opt/convopt.c:92-156; `zero` is `ir_zero_when_converted` -/
def costs (zero : Tree → IMode → Bool) (dest : IMode) : Tree → Int
  | .const _ _ => 0
  | .leaf m s id =>
    if m = dest then 0 else if s then 1 else if zero (.leaf m s id) dest then -1 else 1
  | .un op m s a =>
    if m = dest then 0 else if s then 1 else if zero (.un op m s a) dest then -1
    else if !isDownconv m dest then 1 else min (costs zero dest a) 1
  | .bin op m s a b =>
    if m = dest then 0 else if s then 1 else if zero (.bin op m s a b) dest then -1
    else if !isDownconv m dest then 1 else min (costs zero dest a) 1 + min (costs zero dest b) 1
  | .shift op m s a c =>
    if m = dest then 0 else if s then 1 else if zero (.shift op m s a c) dest then -1
    else if !isDownconv m dest then 1 else if !shiftOk op m dest then 1 else min (costs zero dest a) 1
  | .phi m s k n ops =>
    if m = dest then 0 else if s then 1 else if zero (.phi m s k n ops) dest then -1
    else if !isDownconv m dest then 1 else ((List.finRange (n + 1)).map fun i => min (costs zero dest (ops i)) 1).sum
  | .conv m s a =>
    if m = dest then 0
    else if isDownconv m dest && decide (a.mode = dest) then -1
    else if s then 1 else if zero (.conv m s a) dest then -1
    else if !isDownconv m dest then 1
    else if smallerMode a.mode dest then costs zero dest a - 1
    else if leaveOutMiddle a.mode m dest then 0 else 1

/-- `place_conv`, ir/opt/convopt.c:158-163; `new_r_Conv` applies `transform_node_Conv` (ir/opt/iropt.c:6385-6394): a conversion of a conversion
becomes one where this is allowed -/
def place (dest : IMode) : Tree → Tree
  | .conv m s a => if leaveOutMiddle a.mode m dest then .conv dest false a else .conv dest false (.conv m s a)
  | t => .conv dest false t

/-- `conv_transform`, ir/opt/convopt.c:165-242; `tarval_convert_to` of an integer to an integer mode never fails -/
def transform (zero : Tree → IMode → Bool) (dest : IMode) : Tree → Tree
  | .const m v => if m = dest then .const m v else .const dest (dest.wrap v)
  | .leaf m s id => if m = dest then .leaf m s id else place dest (.leaf m s id)
  | .un op m s a =>
    if m = dest then .un op m s a
    else if s || !isDownconv m dest then place dest (.un op m s a)
    else .un op dest false (if costs zero dest a > 1 then place dest a else transform zero dest a)
  | .bin op m s a b =>
    if m = dest then .bin op m s a b
    else if s || !isDownconv m dest then place dest (.bin op m s a b)
    else .bin op dest false (if costs zero dest a > 1 then place dest a else transform zero dest a)
      (if costs zero dest b > 1 then place dest b else transform zero dest b)
  | .shift op m s a c =>
    if m = dest then .shift op m s a c
    else if s || !isDownconv m dest then place dest (.shift op m s a c)
    else if !shiftOk op m dest then place dest (.shift op m s a c)
    else .shift op dest false (if costs zero dest a > 1 then place dest a else transform zero dest a) c
  | .phi m s k n ops =>
    if m = dest then .phi m s k n ops
    else if s || !isDownconv m dest then place dest (.phi m s k n ops)
    else .phi dest false k n fun i => if costs zero dest (ops i) > 1 then place dest (ops i) else transform zero dest (ops i)
  | .conv m s a =>
    if m = dest then .conv m s a
    else if isDownconv m dest && decide (a.mode = dest) then a
    else if s || !isDownconv m dest then place dest (.conv m s a)
    else if smallerMode a.mode dest then transform zero dest a
    else place dest (.conv m s a)

def isPhi : Tree → Bool
  | .phi .. => true
  | _ => false

/-- `conv_opt_walker`, ir/opt/convopt.c:244-274: what a node is exchanged with, if anything -/
def walker (zero : Tree → IMode → Bool) : Tree → Option Tree
  | .conv m _ a =>
    if !isPhi a && !isDownconv a.mode m then none
    else if costs zero m a - 1 > 0 then none
    else some (transform zero m a)
  | _ => none

/-- the exchange of one node somewhere in a tree, `exchange` in ir/opt/convopt.c:269-273 -/
inductive Step (zero : Tree → IMode → Bool) : Tree → Tree → Prop
  | here {t t'} : walker zero t = some t' → Step zero t t'
  | un {op m s a a'} : Step zero a a' → Step zero (.un op m s a) (.un op m s a')
  | left {op m s a a' b} : Step zero a a' → Step zero (.bin op m s a b) (.bin op m s a' b)
  | right {op m s a b b'} : Step zero b b' → Step zero (.bin op m s a b) (.bin op m s a b')
  | shifted {op m s a a' c} : Step zero a a' → Step zero (.shift op m s a c) (.shift op m s a' c)
  | count {op m s a c c'} : Step zero c c' → Step zero (.shift op m s a c) (.shift op m s a c')
  | phi {m s k n ops ops'} (i : Fin (n + 1)) : Step zero (ops i) (ops' i) → (∀ j, j ≠ i → ops' j = ops j) →
      Step zero (.phi m s k n ops) (.phi m s k n ops')
  | conv {m s a a'} : Step zero a a' → Step zero (.conv m s a) (.conv m s a')

/-- any number of exchanges, the rounds of `conv_opt`, ir/opt/convopt.c:276-296 -/
inductive Steps (zero : Tree → IMode → Bool) : Tree → Tree → Prop
  | refl {t} : Steps zero t t
  | step {t t' t''} : Step zero t t' → Steps zero t' t'' → Steps zero t t''

/-! ## the middle conversion, for all modes -/

/-- `get_significand_size`, ir/opt/iropt.c:6314-6327 -/
def significand : CMode → Nat
  | .int m => m.bits
  | .flt _ M => M + 1

/-- `mode_is_float` -/
def isFloat : CMode → Bool
  | .int _ => false
  | .flt _ _ => true

/-- `mode_is_signed`; floating point modes are signed -/
def isSigned : CMode → Bool
  | .int m => m.signed
  | .flt _ _ => true

/-- `may_leave_out_middle_conv`, ir/opt/iropt.c:6354-6374 -/
def mayLeaveOut (m0 m1 m2 : CMode) : Bool :=
  let floats := (isFloat m0).toNat + (isFloat m1).toNat + (isFloat m2).toNat
  let signed := (isSigned m0).toNat + (isSigned m1).toNat + (isSigned m2).toNat
  if floats == 1 && signed % 2 != 1 then false
  else if floats == 2 && !isFloat m1 then false
  else if decide (significand m1 < significand m2) && decide (significand m0 ≥ significand m1) then false
  else if significand m1 ≥ significand m2 then true
  else !isSigned m0 || isSigned m1

end Verif.Model.ConvOpt
