/-!
# Model of `ir_relation`

`include/libfirm/firm_types.h:162-179` (the enumeration) and
`ir/ir/irnode.c:61-74` (`get_negated_relation`, `get_inversed_relation`).
A relation is a set of the four elementary outcomes, one bit each.
-/
namespace Verif.Model

/-- `ir_relation`, firm_types.h:162. The C enum is a 4-bit mask. -/
abbrev Rel := BitVec 4

namespace Rel
/-- firm_types.h:163 -/
def false : Rel := 0#4
/-- firm_types.h:164 -/
def equal : Rel := 1#4
/-- firm_types.h:165 -/
def less : Rel := 2#4
/-- firm_types.h:166 -/
def greater : Rel := 4#4
/-- firm_types.h:167 -/
def unordered : Rel := 8#4
/-- firm_types.h:168 -/
def lessEqual : Rel := 3#4
/-- firm_types.h:169 -/
def greaterEqual : Rel := 5#4
/-- firm_types.h:170 -/
def lessGreater : Rel := 6#4
/-- firm_types.h:171 -/
def lessEqualGreater : Rel := 7#4
/-- firm_types.h:178 -/
def true : Rel := 15#4

/-- `get_negated_relation`, irnode.c:61-64. -/
def negated (r : Rel) : Rel := r ^^^ Rel.true

/-- `get_inversed_relation`, irnode.c:66-74. -/
def inversed (r : Rel) : Rel :=
  let code := r &&& ~~~(Rel.less ||| Rel.greater)
  let l := r &&& Rel.less ≠ 0#4
  let g := r &&& Rel.greater ≠ 0#4
  code ||| ((if l then Rel.greater else Rel.false)
        ||| (if g then Rel.less else Rel.false))
end Rel

end Verif.Model
