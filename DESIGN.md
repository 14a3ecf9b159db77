# Formal model of libFirm: design

## Trusted base

* Lean 4.33.0 kernel.  Every property theorem depends at most on the three
  standard axioms `propext`, `Classical.choice` and `Quot.sound` (checked with
  `#print axioms` for every theorem named in `MANIFEST.json`).  No own axioms,
  no `sorry`/`admit`, no `native_decide`/`bv_decide`.
* The correspondence between the C text in `/repo` and the Lean definitions in
  `lean/Verif/Model/`.  Each definition cites file and lines.  The C code is not
  compiled or executed here, so this correspondence is by reading.
* The specifications in `lean/Verif/Spec/` (small, independent of the model).

## Modelling conventions

* C `unsigned char`/`unsigned` values are `Nat` (or `BitVec`) with explicit
  reduction where C truncates.  Arithmetic that cannot overflow in C under the
  stated preconditions is left unreduced; the precondition is a hypothesis.
* `assert(...)` failures, out-of-bounds accesses and other undefined behaviour
  are a distinct outcome (`none`, or a `Bool` "ok" flag) wherever the
  property is about them; otherwise the assertion is an explicit hypothesis.
* Memory buffers are lists; in-place (aliased) kernels have an explicit
  write-order model (C06).
* Pointers to interned objects (tarvals, modes) are modelled by the interned
  contents; C09 justifies this for tarvals.
* Loops without an obvious bound carry fuel; the theorems hold for every amount
  of fuel, or a bound is proved.
* A property that the code violates is kept in full in `properties.jsonl`; the
  theorem about the remaining cases has the suffix `_partial`, and a theorem
  with the suffix `_wrong` (or a similar name) proves the violation with a concrete witness.

## Layers

| layer | C files | Lean |
|---|---|---|
| big integers | ir/tv/strcalc.c | Model/StrCalc, StrCalcInPlace, StrCalcIO |
| integer target values, modes, hash-consing | ir/tv/tv.c, ir/ir/irmode.c | Model/TarVal, Mode, TvIntern |
| soft floats | ir/tv/fltcalc.c | Model/FltCalc |
| relations | ir/ir/irnode.c | Model/Relation |
| arithmetic strength reduction | ir/ir/irarch.c | Model/MulDecomp, DivConst |
| known bits | ir/ana/constbits.c | Model/ConstBits, ConstBitsExpr, ConstBitsGraph, ConstBitsIter, ConstBitsAlg |
| value ranges | ir/ana/vrp.c | Model/Vrp |
| double word lowering | ir/lower/lower_dw.c, ir/lower/lower_builtins.c (widen_builtin) | Model/LowerDw |
| dominators, postdominators, frontiers | ir/ana/irdom.c, ir/ana/domfront.c, ir/ana/irouts.c (get_Block_cfg_out_ka) | Model/Dom |
| depth first search, liveness check | ir/ana/dfs.c, ir/ana/irlivechk.c | Model/LiveChk |
| construction of SSA form | ir/ir/ircons.c, ir/ir/irgmod.c (exchange) | Model/SsaCons |
| constants, offsets and 64 bit arithmetic in the RISC-V, MIPS, SPARC and ARM backends | ir/be/riscv, ir/be/mips, ir/be/sparc, ir/be/arm (parts) | Model/BackendImm |
| order of schedules | ir/be/besched.c, besched.h | Model/Sched |
| liveness sets, interference | ir/be/belive.c | Model/LiveSets, Model/Interfere |
| heights of nodes | ir/ana/heights.c | Model/Heights |
| alias analysis | ir/ana/irmemory.c | Model/Alias |
| usage of variables | ir/ana/irmemory.c | Model/Usage |
| chordal coloring | ir/be/bechordal.c, ir/be/bechordal_common.c | Model/Chordal |
| reconstruction of SSA form | ir/be/bessaconstr.c | Model/SsaRecon |
| don't care bits, occult constants | ir/ana/dca.c, ir/opt/occult_const.c | Model/Dca, Model/DcaGraph |
| IA-32 machine code | ir/be/ia32/ia32_encode.c, ia32_spec.pl (opcodes) | Model/Ia32Encode |
| machine code in memory | ir/be/bejit.c, ia32_encode.c and ia32_emitter.c (callbacks) | Model/Bejit |
| condition codes | ir/be/ia32/x86_node.h, ia32_transform.c, ia32_emitter.c, ia32_bearch.c, ia32_optimize.c, ia32_finish.c | Model/X86Cond |
| lowering of Perm nodes | ir/be/belower.c | Model/Perm |
| local optimisations | ir/opt/iropt.c | Model/IrOptBase, IrOptValue, IrOptBits, IrOptShift, IrOptArith, IrOptCmp, IrOptMux |
| boolean/confirm optimisations | ir/opt/boolopt.c, ir/opt/opt_confirms.c | Model/BoolOpt, Confirms |
| switch lowering | ir/lower/lower_switch.c | Model/LowerSwitch |
| containers | ir/adt/* | Model/Array, Bipartite, BitFiddle, Bitset, Deq, HashSet, LSet, PQueue, UnionFind |
| PBQP | ir/kaps/* | Model/Pbqp |
| layout, LEB128, text format | ir/tr/type.c, ir/be/bedwarf.c, ir/ir/irio.c | Model/Layout, Leb128, IrIo |
| narrow integers in registers | ir/be/betranshlp.c, ir/be/ia32/ia32_transform.c | Model/UpperBits |
| instruction patterns | ir/be/ia32/ia32_transform.c, ia32_optimize.c, ia32_emitter.c, ia32_encode.c, ir/be/betranshlp.c | Model/Ia32Patterns |
| pushes and pops for stores and loads | ir/be/ia32/ia32_optimize.c, ir/be/bepeephole.c | Model/Ia32Stack |
| flags in the schedule | ir/be/beflags.c | Model/BeFlags |
| x87 register stack | ir/be/ia32/x86_x87.c | Model/X87 |
| tail recursion | ir/opt/tailrec.c | Model/TailRec |
| control dependence | ir/ana/cdep.c, ir/ir/irgwalk.c (block walk) | Model/Cdep |
| conversion optimisation | ir/opt/convopt.c, ir/opt/iropt.c (two conversions), ir/ir/irmode.c (smaller_mode) | Model/ConvOpt |
| multi operations of the reassociation | ir/opt/reassoc.c:1004-1950 | Model/Setsort |
| equality of operands, chains | ir/opt/reassoc.c:851-979, 1954-2064 | Model/EorEquality |
| CopyB, Alloc | ir/lower/lower_copyb.c:36-175, ir/lower/lower_alloc.c:29-45 | Model/LowerCopyB |
| mode_b | ir/lower/lower_mode_b.c:38-267, ir/ir/irgmod.c:191-303 | Model/LowerModeB |
| intrinsics | ir/lower/lower_intrinsics.c:160-188, 367-392, 498-816, 861-937 | Model/Intrinsics |
| Hungarian method | ir/adt/hungarian.c:78-433 | Model/Hungarian |
| removal of unused entities | ir/opt/garbage_collect.c:25-156, ir/ir/irgwalk.c:32-50 | Model/Garbage |
| Returns | ir/opt/return.c:40-328 | Model/Returns |
| Builtins as calls | ir/lower/lower_builtins.c:56-131 | Model/Builtins |
| Linear equations | ir/adt/gaussjordan.c:36-128 | Model/GaussJordan |
| Linked lists | include/libfirm/adt/list.h:39-236 | Model/ListHead |
| Sparse matrices, Gauss-Seidel | ir/adt/gaussseidel.c:52-188 | Model/GaussSeidel |

`Spec/` has the specifications, `Lemmas/` the helper lemmas, `Props/` the property theorems, each with
examples that meet its hypotheses.

## What is not modelled

* Memory management (obstacks, `xmalloc` failure), debug information, statistics, dumping, hooks.
* Graph traversal, block placement, scheduling and everything that only affects performance.
* In `iropt.c`: Phi nodes, memory operations, reference and floating point modes; the recursive
  optimisation of newly built nodes (the same functions, applied again).
* Front end (`ir/ir/irverify.c`, text format of whole graphs), the back ends, register allocation (other than PBQP).
* Instead of the hash functions arbitrary functions are taken (C33–C37, C59).

## The properties: model and proof

Status and theorem names are in `MANIFEST.json`; here is what is modelled and by which method the claim is proved.

* **C01 Integer target values: add, subtract, multiply, negate wrap modulo 2^n** (proved): byte-list model of the `sc_*` kernels refines arithmetic modulo 2^(8N) by induction over the bytes; `tarval_*` wrappers refine `wrap mode`, the unique representative in the range of the mode; also the pointer (reference) modes.
* **C02 Overflow is reported exactly when the exact result does not fit** (proved): the overflow tests of `tarval_*_overflow` (tv.c) against "the exact result is not in the range of the mode".
* **C03 Bitwise operations act bit by bit on the two's complement representation** (proved): bit by bit, `Int.testBit`-style specification on the two's complement representation; induction over bytes.
* **C04 Integer division truncates towards zero and satisfies the division identity** (proved): the schoolbook division loop of `sc_divmod` with its invariant; truncation and sign rules; division by zero is the bad tarval.
* **C05 Constant shifts follow the mode's shift semantics** (partial): shift loops over bytes; effective count of the mode; counts read through `get_tarval_long`-like truncation.
  The _unsigned variants hold for every amount. The tarval variants truncate the amount to 32 bits, so in a mode without modulo-shift amounts of 2^32 and more violate the property (tarval_shl_truncates); the partial theorems exclude exactly these.
* **C06 Arbitrary precision kernels may be used in place** (proved): write-order model: buffers in one memory, every loop iteration reads and writes cells in the order of the C code; proved equal to the out-of-place result when destination and source coincide.
* **C07 Integer conversion preserves the value modulo 2^n** (proved): `sign_extend`/`zero_extend` on bytes against `wrap`.
* **C08 Comparison of integer target values is the integer order** (proved): `sc_comp` from the most significant byte; order of integers.
* **C09 Target values are hash-consed** (proved): interning table as a list searched with the comparison function; invariant "no two entries are equal" over all histories.
* **C10 Byte import/export round trip** (partial): model with an explicit out-of-bounds flag.
  The stored value is right, but the memset of sc_val_from_bytes starts at the wrong place and clears bytes behind the buffer (from_bytes_writes_outside); the partial theorems speak about the bytes inside the buffer.
* **C11 Bit-field import reads exactly the selected bits** (proved): `sc_val_from_bits` against the selected bits of the little-endian number.
* **C12 Number parsing computes the positional value** (proved): digit loop, positional value by induction over the string; accepted and rejected strings.
* **C13 Printing and parsing integers round-trips** (proved): `sc_print` digit loops; round trip through the parser of C12.
* **C14 Conversion from and to C long** (proved): `long` of 64 bits; both directions.
* **C15 Bit queries on target values** (partial): byte loops of popcount, lowest and highest bit against `Int.testBit`.
  popcount and the predicates hold for every size; highest/lowest bit hold for sizes that are a multiple of 8 and are wrong (-1) otherwise, see lowest_bit_odd_size_wrong.
* **C16 Byte extraction from target values** (partial): `sc_sub_bits` against the byte of the two's complement pattern.
  Holds for sizes that are a multiple of 8; the code violates it otherwise (sub_bits_odd_size_wrong).
* **C17 Mode limits** (proved): cached limits of a mode against the range of the mode.
* **C18 smaller_mode, values_in_mode and is_reinterpret_cast promise lossless conversion** (proved): `smaller_mode`, `values_in_mode` against lossless conversion.
* **C19 Relation algebra** (proved): relations as sets of outcomes, an arbitrary comparison outcome.
* **C20 Multiplication by a constant via shifts and adds is exact** (proved): the decomposition as a function on condensed representations, result an expression tree evaluated modulo 2^n; invariant: the tree computes x times the constant.
* **C21 The multiplication decomposition search terminates** (proved): the same function with fuel; a termination measure shows which fuel suffices.
* **C22 Signed division by a constant via multiply-high is exact** (proved): magic number loop as in the code (Hacker's Delight), invariants of the loop, number-theoretic proof over `Int`.
* **C23 Unsigned division by a constant via multiply-high is exact** (partial): as C22 for the unsigned algorithm with the add indicator.
  Proved for modes whose modulo-shift equals their size (the 32 and 64 bit modes). For every other mode the replacement is the constant 0 (unsigned_div_by_mulh_zero), because of a superfluous shift by the mode size.
* **C24 Division and remainder by a power of two via shifts** (proved): the shift sequences over the IR operations of `Spec/IR`.
* **C25 Known-bits analysis is sound for logical operations and conversions** (proved): transfer functions on `BitVec w` for every `w`; "describes" as specification.
* **C26 Known-bits analysis is sound for arithmetic** (proved): carry propagation: a bit of the sum is known when both operand bits and the carry are; induction over the bits; loop invariant for Mul.
* **C27 Known-bits analysis is sound for shifts** (partial): loop over the possible counts, induction over the count.
  Shl and Shr in full (size a power of two and representable in the mode of the count); Shrs when the effective count is below the size or constant. Missing: Shrs with a partially known count that may exceed the size, where the rule of the code is unsound (constbits_shrs_wrong: 8-bit signed mode with modulo shift 32).
* **C28 Known-bits analysis decides comparisons soundly** (proved): all relations, signed and unsigned.
* **C29 Folding two range comparisons preserves the Boolean result** (partial): the rewrite decisions as a function on pairs of comparisons, semantic equality for all values.
  Disjunctions in full, also for the control flow merge with normalised (negated) conditions; conjunctions except the rule for two comparisons with zero. Missing: that rule builds And instead of Or and is wrong (bool_and_wrong: p == 0 && q == 0 becomes (p & q) == 0).
* **C30 Comparisons decided from confirmed bounds are right** (partial): interval decisions over an abstract ordered mode (integers, floats with NaN and two zeros).
  Missing: three cases in which the code is wrong (left equals the bound of right without inverting the relation; infinities beyond the bounds of a float mode; the two zeros as bounds), each with a witness.
* **C31 Lowering a switch to comparisons preserves the jump target** (partial): the cascade as a tree of conditional jumps, built by binary search over the sorted table; induction over the table.
  Tables of any size in unsigned modes, and tables of single values in signed modes; number of edges per target and of comparisons per path. Missing: proper intervals in a signed mode, where the cascade is wrong (cascade_interval_wrong). QSORT is assumed to sort.
* **C32 Switch normalisation preserves the selected entry** (partial): normalisation (subtract the least case) as a function on the table.
  Missing: negative cases of a selector mode narrower than the mode of the backend, where the rebased table is wrong (normalize_sign_extension_wrong).
* **C33 Priority queue returns elements in priority order** (proved): binary heap in a list; heap invariant under sift up and down; refinement to a multiset.
* **C34 Double ended queue behaves as a sequence** (proved): chain of blocks as a list, refinement to a sequence of bytes for all histories.
* **C35 Open addressing hash sets implement a finite set** (proved): open addressing table with `empty`/`deleted` markers, probing invariant, refinement to a finite map for all histories.
* **C36 Triangular probing visits every bucket** (proved): triangular numbers modulo a power of two are a permutation.
* **C37 Linear hashing set implements a finite set** (proved): bucket addresses of linear hashing under splitting and merging, refinement to a finite set.
* **C38 Union-find maintains the generated equivalence** (proved): parent array with sizes; path compression keeps the roots; generated equivalence for all histories.
* **C39 Bit sets implement subsets of {0..n-1}** (proved): words of 32 bits; every operation against membership.
* **C40 Bit set searches return the nearest position** (partial): search loops, nearest position.
  rbitset_prev reads the word of its start position, which lies outside of the array when it is started at a size that is a multiple of 32 (rbitset_prev_reads_outside); everything else is proved.
* **C41 Bit set decrement** (partial): borrow propagation over words.
  The code detects a borrow by a change of the top bit and goes wrong when the lowest non-zero word is 0x80000000 (rbitset_minus1_wrong); proved for all other contents.
* **C42 Bipartite matching returns a matching** (partial): augmenting path search with fuel; invariant "is a matching".
  termination, matching and inclusion-maximality are proved; maximum size is false, with a witness graph
* **C43 Bit-twiddling helpers** (proved): both preprocessor variants, for all 32-bit numbers.
* **C44 Floating point bytes round-trip** (proved): pattern ↔ (class, sign, exponent, mantissa); value in ℤ scaled by a power of two (`Spec/Float`).
* **C45 Floating point comparison is the IEEE order** (partial): case analysis on class and sign, then exponents and mantissas; `Related` as specification.
  In full for all well-formed values and, on bit patterns, for formats with fewer than 32 fraction bits. Missing: subnormal double precision patterns that are read as zero compare equal (comp_wrong).
* **C46 Floating point addition and subtraction are correctly rounded** (partial): alignment with sticky bit, `normalize` proved correctly rounded in all four modes; `Spec/Float`: the nearest representable number.
  In full for formats with fewer than 32 fraction bits other than 7 and 8 (single, half), with infinities and NaNs. Missing for the others: subnormal results with 32 zero bits at the end, which the code takes for zero (add_flushed_wrong); 7 and 8 fraction bits, where rounding is wrong (add_bfloat16_wrong).
* **C47 Floating point multiplication is correctly rounded** (partial): exact product of the mantissas, `normalize` as in C46.
  Missing: a subnormal operand times a normal one of magnitude 2 or more, where the code does not round correctly (mul_wrong), and the two defects of C46.
* **C48 Floating point division is correctly rounded** (partial): quotient with sticky bit, `normalize` as in C46.
  Missing: a subnormal divisor of a normal dividend, where the quotient is wrong by a factor of 4 (div_wrong), a subnormal dividend with a divisor below 1/2 (div_wrong_rounding), and the two defects of C46.
* **C49 Floating point format conversion is correctly rounded** (partial): change of the mantissa size, `normalize` as in C46.
  Conversions to wider formats are exact; double to single is correctly rounded in full. Missing: signalling NaNs that become infinities (cast_nan_wrong), and the two defects of C46.
* **C50 Float to integer conversion truncates** (proved): truncation of the mantissa by a shift; saturation.
* **C51 Default compound layout is valid** (proved): member loop over `unsigned` (32 bits, wrapping).
* **C52 LEB128 size prediction** (partial): group loop against the encoder.
  Unsigned in full. Missing: the signed size ignores the sign bit; exactly the values whose sign does not fit the last group get a size one too small (sleb128_size_short, sleb128_size_wrong: 64).
* **C53 Exported strings read back unchanged** (proved): writer and lexer over lists of bytes, round trip by induction over the string.
* **C54 Exported numbers read back unchanged** (partial): as C53 for numbers.
  long, int, unsigned in full. Missing: read_size_t reads an unsigned, so every size from 2^32 on reads back as another number (size_round_trip_wrong).
* **C55 PBQP reductions preserve the optimum** (proved): costs in ℕ∞; every reduction step preserves the minimum of the remaining problem plus the collected solution; induction over steps.
* **C56 Growable arrays keep their contents** (proved): cells that may be uninitialised; amortised growth; all histories.
* **C57 Magnitude of a target value** (partial): bytes loop of `tarval_get_magnitude`-like queries.
  Sizes that are a multiple of 8; for other sizes the byte loop of the code starts at index 2^32-2.
* **C58 Bit set range updates** (partial): masks of the first and last word.
  Writes one word outside of the array when the range ends at a size that is a multiple of 32; proved otherwise.
* **C59 Pointer sets distinguish pointers** (partial): instance of C35 with the key function of `pset_new`.
  False on 64-bit hosts: pointers that agree in the low 32 bits are merged (pset_new_conflates). Proved when the low 32 bits tell the pointers apart.
* **C60 Brute force PBQP solver is optimal** (proved): recursion over the alternatives of the chosen node, optimum over all selections.
* **C61 Heuristic PBQP solver reports the cost of its selection** (proved): the reported cost is the cost of the reported selection in the original problem, for every choice function.
* **C62 Building a PBQP adds up the costs** (proved): `add_edge_costs`, `add_node_costs`: total cost of the built problem.
* **C63 Merging PBQP nodes keeps all costs** (proved): reconnection of one edge; the total cost as a function of the selection.  That all edges are simplified before a merge is attempted, and the order of merges, are not modelled; entries of `mapping` that are never written are excluded (`pbqp_mapping_defined`).
* **C64 Folding a node to a constant or an operand preserves its value** (partial): expressions (`Spec/Expr`) with bit vector semantics; `computed_value_*`, `equivalent_node_*` as functions on expressions, one lemma per rule; bit information, value ranges and Confirm facts are a parameter `Ctx`, assumed sound (an instance that is proved sound: `bitsCtx_sound`, C72).
  equivalent_node holds in full. computed_value is wrong for x >> x in modes with modulo-shift (shr_self_wrong); the _partial theorem excludes just this. Negative constant shift counts, for which the code is wrong too (oversize_wrong), count as undefined behaviour of the program. Phi, memory, float and jump nodes are not modelled.
* **C65 Possible relations between two nodes** (proved): `ir_get_possible_cmp_relations` and `value_not_null` on expressions.
* **C66 Rewriting of bitwise operations** (partial): every rule is a function `Option Expr`; the transformation tries them in the order of the code; one lemma per rule.
  Not in full; And, Or, Eor except when the second operand is a comparison of a node with itself, for which the code is wrong (or_self_cmp_wrong); such a comparison is folded first when constant folding is on (self_cmp_folded). Bit information is a parameter assumed sound.
* **C67 Rewriting of shifts** (partial): as C66.
  Missing, each with a witness that the code is wrong: modes without modulo-shift (shift_shift_wrong), shifted operands whose constant counts are not reduced (shl_shr_wrong), counts in a mode narrower than the value (shrs_oversize_wrong), negative constant masks (shift_mask_negative).
* **C68 Removing conversions** (proved): as C66.
* **C69 Rewriting of additions, subtractions and negations** (partial): as C66.
  Sub and Minus in full. Add except for two right shifts, Ands or Ors with a common operand, for which the code is wrong (add_distributive_wrong). Bit information is a parameter assumed sound.
* **C70 Rewriting of multiplications, divisions and remainders** (partial): as C66.
  Div and Mod in full. Mul for modes with modulo-shift and left operands whose constant shift counts are reduced; the code is wrong otherwise (mul_shr_wrong). The replacement of constant factors and divisors by shifts is C21-C23.
* **C71 Comparisons keep their truth value when rewritten** (partial): one pass from `restart` is a function, the passes are iterated with fuel; one lemma per rule, then induction over the passes.
  Every rule is proved for all inputs, except for the situations excluded by CmpSafe, each of which has a witness that the code is wrong: an order relation kept when an operation is removed from both sides, shifts by the same count, arithmetic shifts by more than the size, a negated value compared with the least number, remainders. Floating point and pointer comparisons are not modelled.
* **C72 Known bits describe the value of every node** (partial): structural recursion over the expression with the transfer functions of C25–C28; induction over the expression.
  Expressions with sizes of shifted values that are powers of two and arithmetic shifts whose counts do not exceed the size (the code is wrong otherwise, see C27). Graphs with Phis are in C74.
* **C73 Rewriting of selections** (partial): as C66; the fact that equivalent_node keeps the Mux is a hypothesis (the code calls it first) and excludes decided comparisons.
  Every rule for all inputs, except for the situations excluded by MuxSafe, each of which has a witness that the code is wrong: z != 0 ? -z : z and unsigned values taken for an absolute value, a comparison with -1 of a value known to differ from -1, signed modes of one bit. In full for selectors that are no comparisons. Floating point modes are not modelled.
* **C74 Known bits of graphs with control flow** (partial): SSA graphs with an execution relation (block entry, parallel Phis, then operations); the states of blocks, jumps and data nodes satisfy the equations of `transfer`; induction over executions.
  For every state that is a fixpoint of transfer and graphs whose operations are regular (see C72). Whether the analysis reaches a fixpoint is C76.
* **C75 The known-bits iteration is ascending and bounded** (partial): a run is any sequence of calls of `transfer`, operands may be read in any of the states passed during the call; all transfer functions are monotone on states that are not contradictory; invariant of the run; a rank function bounds the changes.
  For graphs whose operations are regular and that have no Confirm with the relation "equal"; for the others the assertions can fail, shown by constbits_confirm_descends and constbits_shrs_descends.
* **C76 The known-bits analysis ends with right bits** (partial): `get_bitinfo_recursive`, `calc_bitinfo`, `trigger_users` and the walk with the states invalid, in flight, unstable and valid; the depth of the recursion is bounded by fuel, shown to be enough by a measure (nodes not in flight, then bits left to lose); without cycles every computed state is that of the unique fixpoint; a concrete graph refutes the claim for cycles.
  Termination and the bound by every fixpoint for all graphs whose operations are regular and that have no Confirm with the relation "equal". Right bits for graphs without cycles; with cycles the claim is false: constbits_analyze_wrong is a graph with eight blocks for which a Phi is claimed to be constant but is not.
* **C77 The value range analysis is sound** (proved): `vrp_update_node` with the case for each opcode, the merge with the old entry, the first pass and the work list; invariant of every update: entries describe all values that occur (induction over executions), and the kind of a range never changes, so that the unsound merges are not reached.
* **C78 Conclusions from value ranges are right** (proved): from C77 by the definition of `vrp_cmp`, bit by bit for the last case.
* **C79 The value range analysis ends with a stable result** (proved): the bits of an entry are only refined and stay consistent, as all transfer functions are monotone; the number of unknown bits plus the width of the range decreases with each change; work list invariant: a visited node is stable or in the queue.
* **C80 Double word lowering: expressions** (proved): `lower` maps an expression to one or two expressions, absent where the code calls a library function, asserts or panics; induction over the expression with lemmas about the two words of sums, shifts, conversions; `lowerDw_total` says which expressions are lowered and `lowerDw_names` that leaves can be replaced for all their values. Preconditions: each conversion is between modes of at most one word or of two words (`lowerDw_sizes_wrong` shows a mode in between), shifts are modulo the size (else the code panics), the count is unsigned (else an assertion fails). Mul, Div, Mod and float conversions become library calls and are not modelled; a shift of a word by a double word is not lowered by the code.
* **C81 Double word lowering: comparisons and conditional jumps** (proved): from C80 and the lexicographic order of words; the jumps are modelled by the truth value that decides the destination.
* **C82 Double word lowering: memory** (proved): memory as a function from addresses to bytes; loads are defined byte by byte for either order; a Store is specified by the bytes after it.
* **C83 Builtins that count bits: double words and wider types** (partial): specification by bit positions; the word builtins are arbitrary functions that meet it.
  Refuted for the replacement by a wider builtin: clz yields too much by the number of additional bits, popcount too, for negative operands of signed types (lowerBuiltins_widen_*_wrong). Proved for the double words and for the other builtins.
* **C84 Immediate dominators** (proved): the algorithm of Lengauer and Tarjan as it is coded: recursive search, path compression, buckets linked through one field. Lemmas/DomTheory has the theorems about semidominators for arbitrary depth first numberings, Lemmas/DomDfs shows that the search yields such a numbering, Lemmas/DomLT has the invariants of the loop (forest, buckets as lists, step 2 = minimum over paths, step 3, step 4). Dominance itself is defined by paths (Spec/Dominance). Precondition `Cfg.Ok`: out edges, predecessors and kept blocks are consistent. Recursion depth is bounded by fuel that is shown to suffice.
* **C85 Questions about dominance** (proved): intervals of the walk over the tree, by induction over the walk; the comparison is on `BitVec 32`.
* **C86 Dominance frontiers** (proved): by induction over the tree with C84; the specification is the usual definition by predecessors.
* **C87 Postdominators** (proved): same core as C84 on the reversed graph; `Cfg.BackEdge` says which kept blocks count as predecessors of the end block. `postdom_defined` characterises when the assertion of update_pdom_semi (else an access at index -1) holds.
* **C88 Depth first search of blocks** (proved): dfs_perform with its four counters; Lemmas/LiveDfs shows that it is the search of C84 on another order of successors and that the intervals, postorder numbers and ancestors are right (invariant over the loop over successors). TreePath over the field ancestor is the specification.
* **C89 Liveness check** (proved): Lemmas/LiveTheory proves the theorem of Boissinot et al. for arbitrary depth first numberings, without reducibility: a path that avoids the definition exists iff one of the targets of back edges in the part of the dominator tree below the definition sees a use without back edges. Lemmas/LiveSets, LiveChain, LiveLook show that the bitsets are the sets of the theorem, that the recursion terminates and that skipping subtrees loses nothing; Lemmas/LiveEnv connects the numbers of the search and of the dominator tree. Liveness is defined by paths (Spec/Liveness). Not modelled: which users are liveness nodes; a use is given by its block and whether it is a Phi.
* **C90 Limits of a floating point format** (proved): the numbers are compared in quanta with all well-formed values (largest, smallest normal) and with all representable magnitudes (epsilon).
* **C91 Construction of SSA form** (proved): Model/SsaCons has the table graph_arr, the chains of Phi0 nodes, Id nodes as a list of exchanges, get_r_value_internal, set_phi_arguments, try_remove_unnecessary_phi, mature_immBlock and an inductive relation of what a front end can call, with a log of events per block. Spec/SsaCons defines runs of the finished program, independent of the construction: a Phi takes the operand of the edge, variables are updated by assignments. Lemmas/SsaCons: invariant of the graph in the middle of the recursion (pending Phi nodes, facts about values at the begin of blocks up to Id nodes) and a relation between the states before and after. Lemmas/SsaBuild: the invariant over all calls, and an invariant of runs; that a replaced Phi is not needed in its own block uses that nodes of blocks that were not yet entered have no value. Not modelled: default_initialize_local_variable, modes other than memory, optimize_in_place_2 of the block, local optimisation of nodes.
* **C92 Termination of SSA construction** (proved): The recursion has a bound in the model; Lemmas/SsaTerm shows that results do not depend on it and, by a lexicographic measure (blocks with several predecessors without entry, rank in the chain), that some bound is enough. The removal of Phi nodes makes one Phi less in each step.
* **C93 RISC-V constants and offsets** (proved): Spec/MachineImm has expressions of machine instructions with their meaning on 32 bit registers and the condition that immediates fit. Model/BackendImm makes such expressions from constants and offsets as the code does. Theorems: evaluation gives the wanted value, all immediates fit. Not modelled: relocations, scheduling, register constraints, frame layout.
* **C94 MIPS and SPARC constants and offsets** (proved): As C93 for MIPS and SPARC.
* **C95 ARM immediate operands** (proved): As C93 for ARM. The splitting loop is a function whose results satisfy an inductive predicate Parts (bytes at increasing even positions), from which sums, bitwise or and bit clear follow.
* **C96 ARM frame offsets** (partial): As C95; undefined shifts and overflow are the outcome none. The negative result shows the wrong address for every negative offset that does not fit, except the smallest integer.
  False as stated: negative offsets of loads and stores that do not fit are subtracted instead of added (arm_load_store_negative, finding 36); stack pointer changes that are no multiple of four and larger than 255 have undefined behaviour (arm_incsp_undefined, finding 37). The rest is proved.
* **C97 64 bit arithmetic with carry** (proved): Flags of 32 bit additions and subtractions as in Spec/MachineImm; a pair of words stands for its 64 bit value (Spec/DoubleWord).
* **C98 Order of a schedule** (partial): Model/Sched has the list of a block with time steps in 32 bit arithmetic; Spec/Sched has lists with insertion and removal. Invariant: the steps increase along the list and are bounded by the number of insertions; renumbering ends because fewer insertions were made than steps are free.
  Proved for up to 2^17 + 1 insertions into a block. Beyond that the sum of two time steps may exceed 32 bits and the order becomes wrong (schedule_order_wrong, finding 38), so the bound is needed.
* **C99 Liveness sets** (proved): Model/LiveSets has the sorted arrays with growth, binary search and the recursion over predecessors. Lemmas/LiveArrays: each operation refines a map from nodes to flags. Lemmas/LiveMark: the recursion ends and adds exactly the flags of paths (closure and soundness). Spec/Liveness has the flags as existence of paths.
* **C100 Interference of values** (partial): Spec/LivePoints has the points of a scheduled program and liveness at a point as an inductive predicate. Model/Interfere has the queries of belive.c. Used from C86 and C99: dominance, flags.
  Exact for values of different instructions. Two values of one instruction never interfere for be_values_interfere, though they may be live together (finding 39). be_memory_values_interfere is right without Syncs and wrong with them (finding 40).
* **C101 Heights and dependencies in a block** (partial): Model/Heights has the recursion over users, the search over operands and the counters. Spec/Heights: chains and paths as inductive predicates. Induction with a rank (no cycles without Phi) resp. with the heights themselves; invariant per block: heights right, marks not in the future.
  heights_recompute_block resets the counter of searches, after which questions about other blocks are answered wrong (recompute_wrong, finding 41). Everything else is proved.
* **C102 Lowering of Perm nodes** (proved): Spec/Perm has copies and exchanges on a register file and what a parallel copy means. Model/Perm has the loops of lower_perm_node with oregmap and inregs. Lemmas/Perm: chains (no pending pair reads the register that is written next), then pigeonhole: only cycles are left. Lemmas/PermCycles: invariants for the loop with a free register and for the rounds of exchanges. Not modelled: push_through_perm, get_free_register (parameter), replacing of nodes.
* **C103 Alias analysis** (partial): Spec/Alias: an address is an object with an offset modulo 2^w; an execution gives each node such a value; accesses are sets of bytes; rules of the language (no null pointer, access stays in the selected member, instances of a struct do not overlap partly, unknown pointers do not point to variables whose address is not taken). Model/Alias has the functions of irmemory.c up to line 475; signed overflow and failed assertions are a separate outcome. Loop invariants for get_address_info and find_base_addr, then a case analysis over the classes of both bases. Lemmas/AliasExample has one program with an execution for all counterexamples. That types of overlapping accesses are related is a hypothesis (strictly typed language).
  The claim is false for the code: seven kinds of wrong answers are proved (findings 42 to 48). no_alias_partial proves the claim when these are excluded.
* **C104 Usage of variables** (proved): Spec/Usage: a run moves addresses of variables between values, memory and the outside; each step says which variables are read and written; an unknown node may do everything with its operands. Model/Usage has determine_entity_usage with the positions of operands. Invariant over all runs: a value that holds the address of a variable that is not taken is reached from its Address node by address arithmetic, and all users of these nodes have been looked at. The frame pointer itself is taken to be used only by Member nodes.
* **C105 Coloring of registers** (proved): Spec/LivePoints as in C100. Model/Chordal: create_borders as backward scan over the schedule, assign as forward pass over the borders, blocks in an order in which dominators come first. The scan yields exactly the live values (induction over the schedule). Invariant of the forward pass: the active values have different registers and exactly the other allocatable ones are available. For success: two values live at the beginning of a block are both needed at the definition of one of them, in a block that was visited before; the rest is counting. The order of dom_tree_walk is a hypothesis.
* **C106 Reconstruction of SSA form** (proved): Spec/Reaching: an execution is a walk from the start block, the last definition is read off the list of executed nodes, a Phi denotes what its operand denotes at the end of the block left. Model/SsaRecon: definitions, uses, marking of the iterated dominance frontier, search from the end and from the beginning of a block, processing of blocks that have definitions and uses, the worklist. Invariant: what is stored as last definition of a block is the node at its end as defined by dominators and Phis; then induction over the execution: between the immediate dominator and a block outside of the frontier there is no definition. Success: each search goes to a block in which a definition is executed before, with a smaller number; each block gets one Phi.
* **C107 Don't care bits and constants found with them** (partial): Spec/DontCare: agreement of two values in the bits of a mask; an execution with its history. Model/Dca: the masks for the operands of each operation (the mask for Cmp has no effect, since the case leaves the switch and the worst case follows). Model/DcaGraph: care_for, dca_transfer, the work list, and the replacement of nodes. Each operation: equal low bits give equal low bits of sums and products, a bit shifted by a possible count is in the mask; induction over expressions; the work list: a node waits, has no relevant bits, or its calls are obeyed; the number of unset bits and waiting nodes falls; simulation of executions of the graph by those of the new graph, with the known bits of C74.
  Refuted for arithmetic shifts to the right by a count that is not constant; Confirm nodes only with operands that matter completely; sizes of shifted values are powers of two.
* **C108 Machine code of the IA-32 encoder** (partial): Spec/X86: a decoder for the IA-32 instruction set of integer and x87 code, written from the opcode maps and the tables of ModR/M and SIB bytes, that knows nothing of the encoder; Spec/X86Exec: execution of jumps, setcc, operations on registers and string moves. Model/Ia32Encode: every emitter as a function from registers and attributes to bytes and relocations, and the table of opcodes of ia32_spec.pl. Round trip: the fields of the bytes by evaluation over all registers, displacements and immediates by sign extension of the low byte; cases of the short forms; sequences by execution of the decoded instructions.
  Refuted for: test with an immediate, high bytes, sizes of Not and shifts, immediate counts of shifts of memory, the segment gs, immediate operands of IMulImm and Push, stores of the x87 unit, reversed x87 operands. Proved for all other operands. Calls of absolute addresses, switch jumps, inline assembler and SSE are not covered.
* **C109 Layout and relocation of machine code** (partial): Spec/CodeImage: pieces of code with alignment, `.p2align` as the assembler documents it, what stands for a reference at a place, the assembler. Model/Bejit: collection with records of 16 bit offsets and numbers and blank bytes of arbitrary contents, layout, emission to a buffer of the size of the function, emission as text, the callbacks for IA-32. Induction over the items (the copy loop produces item after item) and over the fragments (prefix of the buffer is final); the layout by uniqueness of the multiple in an interval; text by shift invariance of the alignment.
  Proved for fragments below 64 KiB and up to 65536 fragments: the layout and the text in full; in memory whatever is written is right, and the function is written if no padding is needed. Refuted for padding in memory (be_jit_emit_memory then writes outside of the buffer for every such function), for offsets and for numbers of fragments of more than 16 bits. Pointers of 32 bits.
* **C110 Condition codes read the flags of the comparison they were made for** (partial): Spec/X86Flags: the flags of sub/cmp, add/adc, sbb, the logical instructions and ucomis from the operands, for every width; outcomes of comparisons. Model/X86Cond: the codes and their negation and inversion, the choice of the code (`get_flags_node`, `ir_relation_to_x86_condition_code`), `ia32_determine_final_cc`, `ia32_try_replace_flags`, the removal of tests, the choice of what replaces a subtraction. Sign and overflow against the signed comparison by cases of the wrapped difference; then the tables for all relations and all flags; `compare_jump` goes on to the machine code of C108. Not modelled: the choice of address modes, which decides whether operands are exchanged (any choice is allowed here), the walk over the schedule that finds the producer of flags.
  Proved in full: the tables, exchanges of operands, tests, wider comparisons, superfluous tests, the carry variants of a replaced subtraction. Refuted: neg and add for the least negative number, reuse of flags of another size or by adc/sbb, the carry after a multiplication with exchanged operands, bit tests of narrow modes.
* **C111 Narrow integers keep their value in wide registers** (partial): Spec/NarrowIR: expressions and their values, nothing about registers. Model/UpperBits: `be_upper_bits_clean`, the skipping of conversions, and the register each node is computed into; garbage above a number is part of the input. By recursion on the expression, both claims together, since leaving out an extension relies on the answer and the answer on the registers. Not modelled: the patterns for rotations and 64 bit shifts, address modes, the special cases of Mux.
  Proved in full for expressions without conversions from floating point, arithmetic shifts and constant logical shifts, and for all others under the conditions `good` and `askable`. Refuted without them: a number converted from floating point is called clean in every mode, an arithmetic shift is called clean for unsigned numbers, two patterns of gen_Shrs ignore the width.
* **C112 Instruction patterns compute what they replace** (partial): Spec/X86Small: the instructions, from the reference manual. Model/Ia32Patterns: the decisions and the sequences. Values of nodes are given in the theorems (`eval`, `muxDiff`, `IsLowest`, `ones`), not by the model. Contents of registers before setcc and bsf are inputs. The rotations are by the bits of the shifts, the short instructions bit by bit, the 64 bit negation by the cases of equal registers. Not modelled: the address modes of these instructions and the debug output.
  Proved in full: constants, double shifts with proper constants, saturating increment, short logical instructions, tests and address computations, builtins. Refuted and kept as partial: rotations written as a sum with amount 0 and in narrow modes, the difference or zero for signed or narrow numbers, two register assignments of the 64 bit negation, 16 bit rotations by other counts than 8, minimum and maximum with a NaN or zeros of both signs.
* **C113 Pushes and pops for stores and loads around moves of the stack pointer** (partial): Spec/StackCode: a machine with stack pointer, registers and bytes. Model/Ia32Stack: the two walks over the schedule, the choice of the run of slots, the code made. Pushes: the bytes of memory after a list of stores are those of the last store that covers them, and a push stands where the store of its slot stood, because nothing before it writes there. Pops: by induction over the schedule in reverse, a register is the same or is loaded by one of the pops that follow.
  Under what the rest of the backend has to guarantee: stores that are not ordered by memory do not overlap, the stack pointer itself is not the stored value, a loaded value is used before its register is loaded again. Without each of them the claim is refuted. Shorter stores become pushes of four bytes; then memory differs only in bytes of the new stack area that no store writes.
* **C114 Tests see the flags of their producer** (partial): Spec/FlagCode: nodes, one flags register, what is executed and what should be. Model/BeFlags: the walk backwards over the schedule of a block. Induction over the walk: the code behind the current node does what it should from every machine that has the right memory, the right loaded operands and, if tests are open, the flags of the needed producer; each of the three ways gives this again for the node in front.
  The tests need that a memory operand of the producer is loaded before the producer is copied, as in the ia32 backend, or that producers have no memory operands. With exact_copy, which amd64, arm and sparc use, the claim is refuted for a comparison with memory; amd64 has those.
* **C115 Code for the x87 register stack does what the code with registers does** (partial): Spec/X87: nodes with registers, the machine with a stack, graphs and paths; what a program must satisfy. Model/X87: the simulator, node by node, the permutation by cycles and the worklist of blocks. Every node keeps "the stack holds just the live registers, each once, with their values"; the permutation by induction over cycles, each an invariant over its exchanges; the graph by an invariant over the worklist (the code of a finished block leads to the state each successor begins with), then by induction over the path.
  Left out: inline assembler, calls, returns, constants that are loaded again. The mark behind a cycle of eight places is written behind its row of cycle_idx; the memory model has no such outcome, the negation is proved.
* **C116 Recursive calls before a Return can be replaced by a loop** (partial): Spec/TailRec: a body that returns, calls itself before a Return or elsewhere; what it returns, as a relation (a recursion that does not end has no result). Model/TailRec: the variants, the choice of Returns, the loop with accumulators. By induction on the value of a Return, its variant says whether it is r, r + c or c * r; then by induction on the run in both directions, for any content of the accumulators.
  The code refutes the claim for values that subtract from the bare result, use it twice, use it below other operations beside an Add or Mul, and for floating point numbers; the negation is proved for each, the theorem holds for all others. check_lifetime_of_locals is left out: local variables do not occur.
* **C117 Control dependence is computed exactly** (proved): Spec/Cdep: postdominance by paths in the graph with an edge from start to end, control dependence of Ferrante, Ottenstein and Warren. Model/Cdep: the lists, the climb, the walk over the blocks. The climb by induction on the number of the block: it returns the blocks that postdominate the one it began with but not the one it ends at; paths with and without the additional edge are compared.
* **C118 Conversions are moved and left out without changing values** (partial): Spec/ConvTree: trees with the operations of Spec/IR; a Phi takes the value of an operand at an earlier time of an arbitrary world; conversions between all modes as relations, with rounding to nearest. Model/ConvOpt: costs, conv_transform, the walker, exchanges at any place, and the decision about the middle conversion for all modes. Structural induction with one lemma per operator: it commutes with reduction to fewer bits. The costs bound the added conversions by the same induction. Uniqueness and scaling of rounding for the middle conversion.
  Moving conversions is proved for integer modes. The rule for the middle conversion is wrong in four cases with floating point modes, each shown with a value; outside of these it is proved.
* **C119 Reassociation: sets of operands have the value of the tree** (partial): Spec/Setsort: graphs of one operation over a commutative semiring: integers modulo 2^w, and one bit with Eor, Or or And as addition. Model/Setsort: the walk with set membership, edge values, coefficients and the changed mark; merge and merge_trivial_multi_op; rebuild of the three bit operations and of sums with its groups of opposite coefficients and the negative ones at the end. Invariant of the walk: the value of a base node is the combination of the operands visited plus what the edges to nodes not yet visited contribute. For the loop over the coefficients: those done are closed under negation in signed modes, and their parts sum up to the node built so far.
  Proved for sums, And and Or. For Eor the code is wrong if a node inside the tree is used twice by the tree, shown with a graph; proved if such nodes have an odd number of edges. Sums rely on differences of a node and itself having been replaced. Cycles (second_walk) and pointers are not modelled.
* **C120 Reassociation: operands known equal, and chains of bit operations** (partial): Spec/BitTree: trees of one bit with the blocks of the nodes. Model/EorEquality: the recursion of replace_until_other_user with its variables a, b, replace and the result that tells the caller about an exchange; the matching of walk_equality; walk_chains at any node. Induction over the tree with the state of the loop: the result agrees with the variables, the two values stay related, and what has been visited holds at most one of the two.
  Values, the remaining operand, and chains are proved. Availability is refuted in general, and proved if a and b are defined in the same block or the one put in is defined no later (constants).
* **C121 Lowering of block copies, and sizes of stack allocations** (partial): Spec/BlockCopy: memory as a function, the copy of the bytes as they were, the smallest multiple. Model/LowerCopyB: the two nested loops as lists of accesses, Load and Store as passing on bytes. Invariants: the accesses follow one another from 0 to the size, and the offset stays a multiple of the mode size. adjust_alloc_size on bit vectors of any width.
  The copy is proved for all sizes if the widest access has a mode and the destination does not begin inside of the source; a type with an alignment above 8 stops the compiler. Rounding is proved if the rounded size is representable; otherwise it becomes 0.
* **C122 Lowering of boolean values to integers** (partial): Spec/ModeB: values before and after entering a block, with an equation for every node (a Phi takes a value from before). Model/LowerModeB: the recursion with the links (cleared by splits), part_block_edges with the moved nodes and Phis. Invariant over the recursion: new nodes satisfy their equations with the values of the old nodes, new Phis are entered as the old ones were, others use nodes made before; so all solutions of the equations agree.
  Values and completeness are proved for every run that ends; placement is refuted by a loop in which the user of a lowered And goes to the upper block and the And to the lower one. Termination is not proved.
* **C123 Calls of library functions that are evaluated at compile time** (partial): Spec/CString: strlen and strcmp by positions of bytes, as unsigned char. Model/Intrinsics: initializers as lists of elements; tarvals with their mode. Induction over the lists.
  strlen is right if all elements are constants; strcmp if both arrays have one mode and no negative element; even functions if the negated operand is not an unsigned integer below a conversion. The full claims are refuted by witnesses.
* **C124 The Hungarian method finds a best assignment** (partial): Spec/Assign: perfect assignments and their sums. Model/Hungarian: the whole method with the forest, slacks and duals as in the code, and the final check. The two arrays of mates are inverse through all augmentations (invariant), so the mates are a permutation; with the duals of the check the sum of any other assignment is bounded (weak duality). Lemmas/Hungarian: the duals stay feasible, mates and parent edges stay tight, and slacks are least, through exploring, new zeros and augmentation; so the final check succeeds. Every round explores a row or covers a column, parents come earlier in the list of rows, and a least slack exists while a row is unmatched (pigeonhole): so the loops end.
  Termination, success, optimality and the cost are proved in full (integers without overflow). The threshold and the removal of missing edges are refuted by witnesses.
* **C125 Garbage collection removes exactly the entities nobody uses** (proved): Spec/Garbage: what mentions what, and use as reachability from the roots. Model/Garbage: the marking walk over entities and nodes with one list of marks, and the two removals. Every visit keeps marks, marks all that a new mark mentions, and marks only what can be reached (induction over the depth); so the marks are the reachable items. The number of items without a mark bounds the depth.
* **C126 Merging and splitting Returns keeps what a function returns** (proved): Spec/Returns: paths, the values of nodes at the end of a path (Phis take their operands at once when a block is entered), and what it means that Returns are the same on all paths, in both directions. Model/Returns: `can_move_ret`, the new operands, the work list with the final list, and the array of values for one Return. The list and the final list together return the same as the old Returns in each step; weights that shrink by moving up bound the number of steps.
* **C127 Builtins lowered to calls return what the builtin returns** (partial): Spec/Builtins: the results as relations over the bits, undefined where the builtin is. Model/Builtins: when and how `widen_builtin` converts, the name of the function, the panic. All bits above those of the argument are equal after the Conv; by induction over their number they change the count of ones as stated.
  In full for ffs, ctz, parity, bswap. popcount of a widened negative number and clz of a widened number that is not negative are refuted by witnesses; what they return instead is proved exactly.
* **C128 The solver for linear equations returns a solution** (partial): Spec/Linear: what a solution is. Model/GaussJordan: the search for the pivot, exchanges, elimination, back substitution with the type of the sum as a parameter, reordering; division by 0 and access outside of the arrays (no equations) are outcomes of their own. Invariant over the columns: zeros below the diagonal, pivots not 0, and each solution of the changed system gives one of the old system.
  Proved over rational numbers for exact sums in the back substitution, and for the code if all terms of these sums are integers. In general the sums of type int are refuted by a witness; so is the detection of singular matrices. That no division by 0 happens for regular matrices is proved in full.
* **C129 Linked lists hold the elements in the order of the operations** (proved): Spec/Ring: neighbours know each other along the ring, no node occurs twice. Model/ListHead: each assignment one change of the memory in the order of the code. A ring is cut at the place of the change; the parts keep their links because only the cut is written (frame).
* **C130 The sparse matrix keeps its entries, and a step of Gauss-Seidel stops at solutions only** (partial): Spec/Linear: solutions. Model/GaussSeidel: the binary search with its bounds, overwriting and insertion, the scan of get, the inverse diagonal, the step row by row. The search ends at the position of the column or where it belongs (invariant over the bounds); a sorted list of entries sums up to the whole equation.
  Entries and steps in full (rational numbers, diagonal not 0 as asserted). The number of entries is refuted by a witness.

## Findings: where the code violates a property

Proved with a witness (theorem in parentheses):

1. `sc_sub_bits` with odd sizes, `get_tarval_lowest_bit`/`highest_bit` with sizes that are no multiple of 8 (`sub_bits_odd_size_wrong`, `lowest_bit_odd_size_wrong`).
2. `sc_val_from_bytes` clears bytes behind the buffer (`from_bytes_writes_outside`).
3. Counts of 2^32 and more are truncated by `tarval_shl` & co. in modes without modulo-shift (`tarval_shl_truncates`).
4. `sc_is_zero(x, value_size)` in fltcalc.c tests 34 bits instead of 34 bytes: subnormal doubles with 32 low zero bits are taken for zero (`Flt.fromPattern_num_wrong`, `Flt.add_flushed_wrong`, `Flt.comp_wrong`).
5. Overflow in the directed rounding modes ignores the sign (`Flt.overflow_directed_wrong`).
6. Products and quotients with one subnormal operand are wrongly rounded, or off by a factor of 4 (`Flt.mul_wrong`, `Flt.div_wrong`, `Flt.div_wrong_rounding`).
7. Rounding is wrong for formats with 7 or 8 fraction bits, e.g. bfloat16 (`Flt.add_bfloat16_wrong`).
8. Conversion of a signalling NaN may give an infinity (`Flt.cast_nan_wrong`).
9. `rbitset_minus1` loses a borrow (`rbitset_minus1_wrong`).
10. `rbitset_set_range`, `rbitset_prev` access one word outside of the array (`rbitset_set_range_writes_outside`, `bitset_mod_range_outside`, `rbitset_prev_reads_outside`).
11. `bipartite_matching` does not find a maximum matching (`bipartite_matching_not_maximum`).
12. `pset_new` merges pointers that agree in 32 bits on 64-bit hosts (`pset_new_conflates`).
13. `arch_dep_replace_div_by_const` returns x for x / -1; its caller catches this case (`replace_div_minus_one`).
14. Unsigned division by multiply-high shifts by the mode size once too often in modes with modulo-shift ≠ size (`unsigned_div_by_mulh_zero`, `unsigned_div_by_mulh_wrong`).
15. constbits, Shrs by a partially known oversize count (`constbits_shrs_wrong`).
16. lower_switch: intervals in signed modes (`cascade_interval_wrong`); negative cases of a narrow selector (`normalize_sign_extension_wrong`).
17. boolopt: `p == 0 && q == 0` becomes `(p & q) == 0` (`bool_and_wrong`).
18. opt_confirms: relation not inverted; infinities; two zeros (`confirm_swapped_wrong`, `confirm_infinity_wrong`, `confirm_two_zeros_wrong`).
19. Size of signed LEB128 numbers (`sleb128_size_wrong`).
20. `read_size_t` reads 32 bits (`size_round_trip_wrong`).
21. Layout sizes wrap (`layout_overflow`).  `pbqp_add` does not detect overflow (`pbqpAdd32_wrong`).
22. A hexadecimal print of a negative number does not parse back without wrapping (`ascii_roundtrip_strict_fails`).
23. iropt, And/Or/Eor of two comparisons: the operands of one comparison are tested for being equal instead of those of the two (`or_self_cmp_wrong`).
24. iropt, `x >> x` folded to 0 in modes with modulo-shift (`shr_self_wrong`).
25. iropt, carry-free Add treated as Or: the distributive rule builds an Add that has carries (`add_distributive_wrong`).
26. iropt, negative constant shift counts (`oversize_wrong`, `shift_mask_negative`); these need a program with a negative count.
27. iropt, arithmetic shifts by more than the size in modes whose counts are narrower (`shrs_oversize_wrong`); shifts of shifts without modulo-shift (`shift_shift_wrong`); shl/shr pairs with unreduced counts (`shl_shr_wrong`, `mul_shr_wrong`).
28. iropt, Cmp: the same operation removed from both sides of an order relation (`cmp_same_op_wrong`); shifts by the same count (`cmp_shifts_wrong`); oversize arithmetic shifts (`cmp_shrs_wrong`); `-a >= min` (`cmp_minus_wrong`); remainders (`cmp_mod_wrong`, needs value ranges that are not computed today).
29. iropt, Mux: `z != 0 ? -z : z` becomes the absolute value of z; unsigned values are treated like signed ones (`mux_abs_wrong`, `mux_abs_unsigned_wrong`); `c < -1` with c known to differ from -1 overflows (`mux_minus_one_wrong`); signed modes of one bit (`mux_one_bit_wrong`).
30. constbits, the ascending-chain assertions of `set_bitinfo` fail for Confirm nodes with the relation "equal" and for oversize arithmetic shifts (`constbits_confirm_descends`, `constbits_shrs_descends`).
31. constbits, the demand-driven iteration can end in a state that is no fixpoint and claim a Phi to be constant that is not (`constbits_analyze_wrong`, a graph with eight blocks): `trigger` does not pass nodes that are already unstable or in flight, blocks and jumps are not calculated again when an operand turned unstable during their calculation (Phis are), and nodes the walk has visited are not visited again. Debug builds would stop with "verify constbits failed".
32. lower_builtins, `widen_builtin`: the operand is converted to the signed mode of address offsets and the wider builtin is called without a correction; clz is too large by the additional bits (`lowerBuiltins_widen_clz_wrong`), popcount of negative operands of signed types as well (`lowerBuiltins_widen_popcount_wrong`). amd64 takes this path for popcount and parity.
33. lv_chk_bl_xxx, case def_bl == bl: the block of a Phi operand is not compared with NULL as in the other case, so an operand over a Bad predecessor counts as a use elsewhere and a dead value is reported live at the end and out of its block (`live_check_absent_pred`). The answer errs on the safe side.
34. get_r_value_internal: an unreachable cycle of matured blocks with one predecessor each makes the recursion endless (`get_unbounded`); a front end that compiles `goto` into dead code can build one.
35. try_remove_unnecessary_phi calls exchange for a Phi of memory that is already kept alive when its last other operand was removed by mature_immBlock of another block; the assertion in exchange (ir/ir/irgmod.c:45-56) fails in debug builds (`exchange_assertion_fails`). Without assertions the result is right.
36. peephole_arm_Str_Ldr splits the (negative) offset itself and then subtracts the parts: the address is base - offset instead of base + offset (`arm_load_store_negative`). It needs a negative offset of more than 4095 (or 255); frame offsets are usually relative to the stack pointer and positive.
37. arm_ror shifts by 32 for rotation 0; peephole_be_IncSP reaches it for a change of the stack pointer by more than 255 that is no multiple of four (`arm_incsp_undefined`). On x86 hosts the result would still be right.
38. Time steps of a schedule are 32 bit and the middle of two steps is computed as (a + b) / 2: after 131073 insertions into one block an insertion before the last instruction overflows and the order of time steps is wrong (`schedule_order_wrong`).
39. be_values_interfere answers false for any two values of one instruction (Projs), since neither definition strictly dominates the other (`projections_never_interfere`, `projections_interfere_wrong`). Register allocation itself does not ask this question; copy coalescing (becopyopt.c, becopyilp.c) does, and may count two results of one instruction as mergeable.
40. live_at_user returns the answer for the first Sync among the users and ignores all users after it, so be_memory_values_interfere may deny that a stack slot is still needed (`memory_interfere_wrong`); bespillslots.c merges slots by this answer. get_highest_sync_op does not look into a Sync at its first operand.
41. heights_recompute_block sets the counter of searches back to 0 but leaves the marks of the nodes of other blocks, so heights_reachable_in_block answers false for them until the counter has caught up (`recompute_wrong`). The function is part of the public interface but not called in the repository.
42. get_alias_relation compares offsets from the same base as unsigned numbers. An access at a negative offset that ends at or after the base pointer, for example 8 bytes at p-8, gets "no alias" with every later access at a negative offset, for example 4 bytes at p-4 (`negative_wrong`). The answer also depends on the order of the arguments (`order_wrong`).
43. classify_pointer marks arrays as primitive objects because an array is no compound type. So `arr[i].x` and `q->x` get "no alias" when q points into the array of structs arr (`array_wrong`).
44. find_base_addr stops at an Add below a Member or Sel, and the result counts as a pointer of unknown origin. determine_entity_usage looks through Add, so the variable below may count as not taken: `((T *)((char *)&g + 8))->x` and `g.b` get "no alias" (`arith_wrong`).
45. Alias entities are compared as different variables (`second_name_wrong`).
46. Constant addresses are compared without symbolic offset and without offsets of members: `((char *)4096)[i]` and `*(char *)4097`, `((T *)4096)->y` and `*(int *)4100` get "no alias" (`const_index_wrong`, `const_member_wrong`).
47. With type based analysis a pointer and a struct that contains this pointer get "no alias", although different_types would see it; matters for CopyB (`pointer_part_wrong`).
48. "Sure alias" is returned for accesses that do not overlap (`sure_wrong`); callers only ask for "no alias".
49. determine_entity_usage asks for the parameter type of every argument of a Call. For an argument in the variable part of a variadic call there is none, so `printf("%d", &x)` like calls fail the assertion of get_method_param_type, or read behind the array in release builds, when the type of the Call lists only the fixed parameters; the verifier allows such Calls (`variadic_wrong`).
50. dca_transfer computes the relevant bits of the left operand of Shrs like those of Shr when the count is not constant and its known bits are available, and adds the sign bit only for constant counts. In `x >> (c & 2)` bit 30 of the result is the sign of x when c & 2 is 2, but only bit 30 of x is marked; occult_consts may then replace x by a constant with the wrong sign (`dca_shrs_wrong`).
51. enc_imulimm and enc_push hand the numbers 8 and 32 to enc_imm, whose parameter is the enumeration x86_insn_size_t with the values 0 to 5: the encoder panics for every multiplication by a constant and every push of a constant (`enc_imm_panics`).
52. enc_fist and enc_fst emit the instruction and then run into the `panic` behind the switch, because the `return` is missing: every store of the x87 unit panics (`enc_fst_panics`).
53. enc_test emits opcode F6 without the bit for 16 and 32 bits when the right operand is an immediate and the left one is not eax: `testl $1000, %ecx` becomes `testb $232, %cl`, and the processor executes the other three bytes of the immediate (`enc_test_wrong`).
54. The encoder never looks at `use_8bit_high`, which the peephole optimizations of And, Or, Xor and Test set: the operation is done on the low byte instead of the high one (`enc_high_byte_wrong`).
55. ia32_enc_shiftop_mem takes input 1, the index of the address, for the count: a shift of memory by a constant becomes a shift by cl (`enc_shiftop_mem_wrong`).
56. ia32_enc_unop ignores the size of the node, though peephole_ia32_Xor makes Not nodes of 8 and 16 bits (`enc_size_ignored`).
57. enc_mod_am ignores the segment of the address: accesses to thread local variables through gs go to the flat address (`enc_segment_ignored`).
58. ia32_enc_fbinop chooses the reversed operation by `ins_permuted` instead of `x87.reverse`, which the simulator computes: fsub and fdiv have their operands exchanged whenever the right operand is on top of the stack (`enc_fbinop_wrong`).
59. be_jit_emit_memory computes the padding as `last_address - address`, the wrong way round: whenever a fragment is moved to be aligned, the callback is asked to write nearly 2^32 bytes of padding (`jit_memory_padding_wrong`).
60. `relocation_t` keeps the offset and the number of the fragment in 16 bits: in a basic block of more than 64 KiB the relocation is applied to the wrong place and the right one keeps uninitialised bytes (`jit_offset_wrong`), and a jump to block 65536 + n goes to block n (`jit_fragment_number_wrong`). No assertion fails.
61. ia32_transform_sub_to_neg_add replaces `a - b` by `neg b; add b, a` unless a user of the flags reads the carry; signed comparisons that share the flags of the subtraction read the overflow, which is wrong if b is the least negative number: `0 < INT_MIN` holds (`sub_to_neg_add_wrong`).
62. ia32_try_replace_flags does not compare the sizes of the two comparisons, so flags of a 32 bit subtraction can replace those of a 16 bit comparison (`replace_flags_size_wrong`), and it inverts the code of adc and sbb, which read the carry flag whatever their code is (`replace_flags_carry_wrong`).
63. After removal of a test of the upper half of a product the users read the carry of the mul; if the operands of the mul are exchanged later (reload of an operand), ia32_determine_final_cc inverts their codes as if the mul were a comparison (`remove_test_mul_permuted_wrong`).
64. The bit test reads 32 bits for modes of 8 and 16 bits: for shift amounts from the width on, where the shifted one is zero, it reads bits of the register that do not belong to the value (`bit_test_narrow_wrong`).
65. conv_upper_bits_clean answers yes for every conversion from floating point, whichever mode is asked for. `(int)d & 0xFF` loses its mask: gen_And turns it into a zero extension, create_I2I_Conv leaves the extension out (`float_mask_refuted`); likewise `(unsigned short)(int)d` (`float_widening_refuted`).
66. shrs_upper_bits_clean asks its operand also for unsigned modes, but the code extends the sign of the operand, so an arithmetic shift of a 16 bit number seen as unsigned has ones above (`arithmetic_shift_refuted`).
67. gen_Shrs: the patterns for a shift by 31 and for a shift to the left and back by 16 or 24 do not ask for the width of the node; for 16 bit nodes the former reads bit 31 of the register and the latter returns the operand where the result is zero (`narrow_shift_by_31_refuted`, `narrow_sext_refuted`).
68. shr_upper_bits_clean compares the constant amount without reducing it modulo 32; a shift by 40 counts as leaving 8 bits (`large_amount_refuted`).
69. be_pattern_is_rotl takes `(x << c) + (x >> -c)` for a rotation; for amount 0 the sum is `2 * x` (`rotl_add_refuted`). For modes of 16 bits it takes `(x << c) | (x >> -c)` for a rotation of 16 bits although the shifts are modulo 32 (`rotl_narrow_refuted`).
70. match_64bit_shift does not look at the mode: in 16 bits `(a << 20) | (b >> 12)` becomes a double shift that brings bits above the 16 of `b` into the result (`match64_narrow_refuted`); constants 0 and 32 become a double shift by 0 (`match64_zero_refuted`).
71. gen_Mux makes the unsigned difference or zero without asking for sign or width; mux_is_doz asks for the sign, but a Mux allowed because of cmov reaches the same place: `a > b ? a - b : 0` on signed 1 and -1 gives 0 (`doz_signed_refuted`, `doz_narrow_refuted`).
72. emit_ia32_Minus64 is wrong where both inputs are in the register of the upper output (`emit_minus64_refuted`); enc_minus64 lacks the case of equal inputs in the register of the lower output, which the text emitter has (`enc_minus64_refuted`).
73. peephole_ia32_Rol exchanges two bytes for every 16 bit rotation, whatever the count (`short_rol_refuted`).
74. Minimum and maximum: gen_Mux takes `a < b ? b : a` for a maximum and lets match_commutative exchange the operands, both wrong where one is no number; `a <= b ? a : b` takes the other zero (`float_minmax_right_refuted`, `float_minmax_exchanged_refuted`, `float_minmax_zero_refuted`). mux_is_float_min_max allows relations with unordered for which gen_Mux panics (`float_minmax_panics`).
75. peephole_IncSP_Store_to_push looks neither at what is stored nor at the stores it skips: a store of the stack pointer would push an intermediate value (`stack_pointer_stored_not_pushed`), and a push moves before a skipped store to the same slot (`overlapping_stores_exchanged`). peephole_Load_IncSP_to_pop does not enter the register of a skipped load into its mask (`dead_load_survives`). All three need code that the backend is not known to make.
76. be_sched_fix_flags of the amd64 backend is called without a function for rematerialization (amd64_bearch.c:675-676), so a comparison is copied with exact_copy, memory operand included. gen_Cmp folds loads into comparisons (amd64_transform.c:2216-2239, `rematerializable` in amd64_spec.pl:134-143). If a store stands between the comparison and its copy, the copy reads the new value and the test goes wrong (`exact_copy_reads_memory_again`). The ia32 backend turns the address mode back first (flags_remat).
77. x87_shuffle has `unsigned char cycle_idx[4][8]` (x86_x87.c:394) and writes a mark behind the last place of a cycle (x86_x87.c:429). With eight values on the stack a cycle can have eight places, then the mark is written to and read from cycle_idx[0][8], outside the row (`mark_behind_row`); in memory this is the unused row behind it. With seven values it fits (`cycles_fit_partial`), and there are never more than four cycles (`four_cycles`).
78. find_variant returns the variant of the left operand for a Sub (tailrec.c:393-395), TR_DIRECT for `f(n - 1) - x`. So the Return counts as one of the bare result, and the subtraction is dropped (`sub_is_wrong`); below a Mul or Minus the difference counts as a product. An Add returns TR_ADD in this case (tailrec.c:369-370).
79. An Add or Mul with the result of the call on both sides is accepted, as the variants are equal (tailrec.c:365-368, 422-425): `r * r` counts as r times something and `(r + x) + (r + y)` as r plus something, with the same r on both sides (`twice_is_wrong`, `twice_sum_is_wrong`).
80. find_variant returns TR_UNKNOWN, "no call", for every other operation (tailrec.c:444-445), whether or not the result of the call is below it: `r + (r << 1)` counts as r plus something (`other_is_wrong`).
81. Floating point modes are not excluded, but the accumulator sums in another order: `1.0 + f(n - 1)` with f(0) = 2^53 returns 2^53 + 2 instead of 2^53 behind two calls (`float_is_wrong`).
82. (C118) may_leave_out_middle_conv (ir/opt/iropt.c:6354-6374) accepts integer to narrower integer to float if the float has a smaller significand: `(float)(int)x` of a 64 bit x becomes `(float)x`; for 2^32 + 5 the result is 4294967296 instead of 5 (`int_int_float_wrong`).
83. (C118) It accepts float to integer to narrower integer: `(int)(long)d` becomes `(int)d`, which is undefined for numbers that fit into long only (`float_int_int_wrong`).
84. (C118) It accepts a number that is rounded twice: `(float)(double)x` of a 64 bit integer becomes `(float)x`; for 2^60 + 2^36 + 1 the results differ (`int_float_float_wrong`).
85. (C118) It accepts double to float to a small integer: `(char)(float)d` becomes `(char)d`; 2 - 2^-40 gives 1 instead of 2 (`float_float_int_wrong`).
86. (C119) add_to_Eor_set (ir/opt/reassoc.c:1086-1099) adds the operands of a node inside an Eor tree once, even if the tree uses the node twice. With t = p ^ q and m = c & d, `t ^ m ^ z ^ t ^ m` is built as `p ^ q ^ z` instead of `z`: m occurs twice and marks the set as changed (`eor_two_edges_wrong`).
87. (C119) For a difference of a node and itself both edges are taken for the right operand (ir/opt/reassoc.c:1134, 1172, 1188, 1295): the coefficient is -2 instead of 0 (`sub_same_wrong`). Local optimisation replaces such differences, so the walk does not meet one unless a previous step of the pass leaves it.
88. (C120) replace_until_other_user (ir/opt/reassoc.c:872-921) puts b in place of a at nodes in any block. In `(a ^ b) & ((b & y) | (a & x))` with `a & x` computed in an earlier block than b, b is met first and `a & x` becomes `~b & x`, a use before the definition (`replace_not_available`).
89. (C121) lower_small_copyb_node (ir/lower/lower_copyb.c:62-69) begins with accesses as wide as the alignment of the type where misaligned accesses are not allowed (ARM, MIPS, RISC-V, SPARC); for an alignment of 16 or more, also of a small type, get_ir_mode panics (`alignment_panics`).
90. (C121) adjust_alloc_size (ir/lower/lower_alloc.c:29-45) adds without a check: sizes in the last 2^k - 1 values of the mode become 0, so an Alloc of such a size gets no memory instead of failing (`alloc_size_wraps`).
91. (C122) lower_node (ir/lower/lower_mode_b.c:100) reads the block of the node before it lowers the operands. If an operand leads through a Phi of the same block to a Cmp that depends on a Mux with the node as selector, lowering the Cmp splits the block, and node and Mux go to the upper block; the lowered node is put into the lower one, below its use in the Mux (`use_above_definition`).
92. (C123) eval_strcmp (ir/lower/lower_intrinsics.c:619-687) compares elements in their own mode: where char is signed, `strcmp("", "a")` becomes negative (`strcmp_signed_wrong`); `strcmp(s, "")` becomes `(int)*s`, negative for bytes from 0x80 on (`strcmp_empty_wrong`). C compares as unsigned char.
93. (C123) eval_strcmp compares tarvals by address: a signed char and an unsigned char array with the same first character differ there, and the difference 0 is returned although the strings differ later (`strcmp_modes_wrong`).
94. (C123) initializer_val_is_null (ir/lower/lower_intrinsics.c:521-540) takes a node that is no Const for not zero, so eval_strlen counts past an element that turns out to be 0, such as an Offset node (`strlen_unknown_wrong`).
95. (C123) i_mapper_symmetric_zero_to_one (ir/lower/lower_intrinsics.c:372-385) drops a Minus below a Conv without looking at its mode: `cos((double)-1u)` becomes `cos(1.0)` (`even_unsigned_wrong`).
96. (C124) hungarian_solve compares the threshold with costs from which the column minima have been subtracted (ir/adt/hungarian.c:184-196, 391-393): in a column without cheap entries expensive pairs stay (`threshold_wrong`). For the caller in bechordal.c a register that is allowed nowhere has such a column.
97. (C124) hungarian_remove (ir/adt/hungarian.c:141-152) marks both nodes as missing, although they may have other edges; in normal matching they get no partner (`remove_wrong`). The other way round, a pair without an edge stays if both nodes have other edges (`normal_without_edge`).
98. (C127) widen_builtin (ir/lower/lower_builtins.c:71-104) does not correct the result: clz of a widened argument counts the added zeros (`clz_wrong`), popcount of a widened argument of a signed mode counts the added signs (`popcount_wrong`). The amd64 backend handles clz itself, so there only popcount with a signed argument can go wrong.
99. (C128) firm_gaussjordansolve adds up the known part of an equation in a variable of type int (ir/adt/gaussjordan.c:112-114), which cuts off fractions: for 2 x + y = 1, y = 1/2 it returns x = 1/2 (`solve_wrong`). The library itself has no caller.
100. (C128) The last pivot is not compared with SMALL (ir/adt/gaussjordan.c:52-67, 108): a singular matrix can lead to a division by 0 with return value 0 (`singular_unnoticed`). For no equations, nsize - 1 wraps around and memory outside of the arrays is accessed.
101. (C130) gs_matrix_set counts an entry as zero each time it is set to 0, does not uncount it when it is set to another value, and does not count new entries that are 0 (ir/adt/gaussseidel.c:111-131): gs_matrix_get_n_entries wraps around after an entry was set to 0 twice (`nEntries_wrong`). The test for space in line 121 is always true, so that every new entry enlarges the row by 16.

Observed while reading, without a theorem:

* hashset: `num_deleted` is not reduced when a deleted slot is reused, so tables are rehashed earlier than necessary.
* `set`/`pset_remove` require that the element is present.
* `tarval_is_long` accepts unsigned values up to 2^64-1 (they become negative); `tarval_is_uint64` accepts negative values.
* kaps: a sum that reaches `INF_COSTS` is taken for infinity.
* boolopt, `normalize_cmp`: `io_rel` and `io_tv` are updated by different conditions.
* lower_switch: `compare_entries` is inconsistent for two default entries; `target_t.n_entries` is a `uint16_t`.
* fltcalc, `normalize`: stores a negative number in a `char`, i.e. relies on `char` being signed; reports `exact` on overflow to infinity; `1 << exponent_size` is undefined for 31 bits and more; `fc_set_rounding_mode` is never called from outside.
* vrp: merging two antiranges is wrong (`vrp_merge_wrong`) but never happens with different ones; the ranges of Conv nodes are dead code, since `tarval_cmp` never returns `less_equal` or `greater_equal`.
* iropt, `transform_node_Add`, `x*y + x*z`: the second query repeats the first operand.
* iropt, Cmp with `And(x, C) == C`: a later branch uses the wrong relation but is unreachable (proved: `cmpAndSame_none`).
* iropt, `transform_node_shift`: the assertion about modulo-shift fails for modes without one.
* `values_in_mode` ignores signedness; it is called only where this does not matter.
