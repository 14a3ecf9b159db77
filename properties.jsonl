{"id": "C01", "title": "Integer target values: add, subtract, multiply, negate wrap modulo 2^n", "statement": "With the default wrap-on-overflow setting, tarval_add, tarval_sub, tarval_mul, tarval_neg and tarval_abs on integer target values of an n-bit mode return the target value of the same mode whose mathematical value is congruent modulo 2^n to the exact integer result and lies in the mode's range [min,max].", "quantifier": "every integer mode with 1 <= n <= 136 bits, signed or unsigned, and every pair of representable operands", "why_tests_cant": "There are 2^(2n) operand pairs per mode; tests only sample a few, while carry chains and sign corrections fail on isolated bit patterns.", "anchors": ["ir/tv/tv.c:tarval_add", "ir/tv/tv.c:tarval_sub", "ir/tv/tv.c:tarval_mul", "ir/tv/tv.c:tarval_neg", "ir/tv/tv.c:tarval_abs", "ir/tv/strcalc.c:sc_add", "ir/tv/strcalc.c:sc_sub", "ir/tv/strcalc.c:sc_mul", "ir/tv/strcalc.c:sc_neg"]}
{"id": "C02", "title": "Overflow is reported exactly when the exact result does not fit", "statement": "With wrap-on-overflow switched off, integer tarval_add, tarval_sub, tarval_mul and tarval_neg return tarval_bad if and only if the exact mathematical result lies outside the mode's range, and otherwise return exactly that result.", "quantifier": "every integer mode up to 136 bits, every pair of operands", "why_tests_cant": "Both directions (no missed overflow, no spurious overflow) over all operands; boundary overflows are measure-zero in random tests.", "anchors": ["ir/tv/tv.c:is_overflow", "ir/tv/tv.c:get_int_tarval_overflow"]}
{"id": "C03", "title": "Bitwise operations act bit by bit on the two's complement representation", "statement": "tarval_and, tarval_or, tarval_eor, tarval_not, tarval_andnot and tarval_ornot return the value whose n-bit two's complement bit i is the Boolean operation applied to bit i of the operands, for every i < n, and the result is a canonical (in-range) value of the mode.", "quantifier": "every integer mode up to 136 bits, all operands, all bit positions", "why_tests_cant": "Canonicity of the bits above n is an invariant over all values, invisible to comparing a few printed results.", "anchors": ["ir/tv/tv.c:tarval_and", "ir/tv/tv.c:tarval_or", "ir/tv/tv.c:tarval_eor", "ir/tv/tv.c:tarval_not", "ir/tv/tv.c:tarval_andnot", "ir/tv/tv.c:tarval_ornot", "ir/tv/strcalc.c:sc_not"]}
{"id": "C04", "title": "Integer division truncates towards zero and satisfies the division identity", "statement": "For a divisor b that is not zero, tarval_div(a,b) is a/b truncated towards zero (wrapped into the mode, which only matters for min/-1), tarval_mod(a,b) has the sign of a and magnitude below |b|, and a = b*tarval_div(a,b) + tarval_mod(a,b). For b = 0 the result is tarval_bad.", "quantifier": "every integer mode up to 136 bits, every dividend and divisor", "why_tests_cant": "The digit-wise long division loop subtracts until negative; its loop invariant must hold for every digit string.", "anchors": ["ir/tv/tv.c:tarval_div", "ir/tv/tv.c:tarval_mod", "ir/tv/tv.c:tarval_divmod", "ir/tv/strcalc.c:sc_divmod", "ir/tv/strcalc.c:sc_push"]}
{"id": "C05", "title": "Constant shifts follow the mode's shift semantics", "statement": "tarval_shl/shr/shrs (and the _unsigned variants) by amount s yield a*2^s wrapped, the logical shift of the n-bit pattern, and floor(a/2^s) of the signed interpretation, where s is first reduced modulo the mode's modulo-shift (if non-zero), and amounts >= n give 0, 0 and the sign fill.", "quantifier": "every integer mode whose size is a multiple of 8 (for shrs) or any size (for shl, shr), every value and every non-negative shift amount (a negative amount violates an assertion)", "why_tests_cant": "Amounts interact with byte boundaries, the modulo shift and the buffer size in ways examples do not enumerate.", "anchors": ["ir/tv/tv.c:tarval_shl", "ir/tv/tv.c:tarval_shr", "ir/tv/tv.c:tarval_shrs", "ir/tv/strcalc.c:sc_shlI", "ir/tv/strcalc.c:sc_shrI", "ir/tv/strcalc.c:sc_shrsI"]}
{"id": "C06", "title": "Arbitrary precision kernels may be used in place", "statement": "Calling sc_add, sc_neg, sc_not, the bitwise kernels, sc_shlI, sc_shrI and sc_shrsI with the output buffer aliasing an input gives the same result as with a separate output buffer.", "quantifier": "all buffers, all shift counts, all aliasing patterns used by callers", "why_tests_cant": "Aliasing correctness depends on the order of reads and writes for every length and shift distance.", "anchors": ["ir/tv/strcalc.c:sc_add", "ir/tv/strcalc.c:sc_neg", "ir/tv/strcalc.c:sc_shlI", "ir/tv/strcalc.c:sc_shrI", "ir/tv/strcalc.c:sc_shrsI"]}
{"id": "C07", "title": "Integer conversion preserves the value modulo 2^n", "statement": "tarval_convert_to between integer modes yields the unique value of the destination mode congruent to the source value modulo 2^(destination bits); in particular a conversion to a mode that can represent the source value is the identity on values.", "quantifier": "every pair of integer modes up to 136 bits and every source value", "why_tests_cant": "Sign/zero extension must use the right signedness for all mode pairs and values.", "anchors": ["ir/tv/tv.c:tarval_convert_to", "ir/tv/tv.c:get_int_tarval", "ir/tv/strcalc.c:sc_zero_extend", "ir/tv/strcalc.c:sc_sign_extend"]}
{"id": "C08", "title": "Comparison of integer target values is the integer order", "statement": "tarval_cmp on two integer target values of the same mode returns exactly one of less, equal, greater, and it is the order of the mathematical values; equal is returned exactly for the same tarval object.", "quantifier": "every integer mode, every pair of values", "why_tests_cant": "Needs the canonical-form invariant for all values plus totality of the digit comparison.", "anchors": ["ir/tv/tv.c:tarval_cmp", "ir/tv/strcalc.c:sc_comp", "ir/tv/tv.c:identify_tarval"]}
{"id": "C09", "title": "Target values are hash-consed", "statement": "Two integer target values of the same mode are pointer-identical if and only if their mathematical values are equal, after any sequence of constructions.", "quantifier": "every sequence of tarval constructions", "why_tests_cant": "Quantifies over all histories of the interning table.", "anchors": ["ir/tv/tv.c:identify_tarval", "ir/tv/tv.c:cmp_tv", "ir/tv/tv.c:hash_tv", "ir/adt/set.c:set_insert"]}
{"id": "C10", "title": "Byte import/export round trip", "statement": "Exporting an integer target value of a mode with a multiple of 8 bits to bytes and importing those bytes again gives the same target value, and importing any byte string gives its little-endian value reduced to the mode; no byte outside the value buffer is written.", "quantifier": "every integer mode whose size is a multiple of 8, every value, every byte string", "why_tests_cant": "Out-of-bounds writes and lost sign bits need all lengths, not samples.", "anchors": ["ir/tv/tv.c:new_tarval_from_bytes", "ir/tv/tv.c:tarval_to_bytes", "ir/tv/strcalc.c:sc_val_from_bytes", "ir/tv/strcalc.c:sc_val_to_bytes"]}
{"id": "C11", "title": "Bit-field import reads exactly the selected bits", "statement": "sc_val_from_bits(bytes, from, to) yields the number formed by bits from..to-1 of the little-endian byte string.", "quantifier": "every byte string and every from < to within it that fits the value buffer", "why_tests_cant": "All combinations of start/end bit offsets and lengths, including the single byte special case.", "anchors": ["ir/tv/strcalc.c:sc_val_from_bits"]}
{"id": "C12", "title": "Number parsing computes the positional value", "statement": "sc_val_from_str succeeds exactly when every character is a digit of the base, and then the buffer holds the (possibly negated) positional value modulo the buffer size.", "quantifier": "every base 2..16, every non-empty string whose value fits the multiplication precision", "why_tests_cant": "Horner evaluation over strings of any length.", "anchors": ["ir/tv/strcalc.c:sc_val_from_str", "ir/tv/tv.c:new_integer_tarval_from_str"]}
{"id": "C13", "title": "Printing and parsing integers round-trips", "statement": "Printing an integer target value in decimal or hexadecimal and parsing the digits again yields the same value; decimal output has no superfluous leading zero.", "quantifier": "every integer mode up to 136 bits and every value", "why_tests_cant": "Repeated division produces digit strings of unbounded length; correctness is an induction over digits.", "anchors": ["ir/tv/strcalc.c:sc_print_buf", "ir/tv/strcalc.c:sc_val_from_str", "ir/tv/tv.c:ir_tarval_to_ascii", "ir/tv/tv.c:ir_tarval_from_ascii"]}
{"id": "C14", "title": "Conversion from and to C long", "statement": "new_tarval_from_long wraps the long into the mode; followed by get_tarval_long it is the identity for values representable in the mode. tarval_is_long holds exactly when converting to a long-sized type loses no information (value in the range of long for a signed mode, below 2^64 for an unsigned mode), and then get_tarval_long returns the value reduced modulo 2^64 into the range of long, i.e. the value itself whenever it is in the range of long.", "quantifier": "every long value, every integer mode up to 136 bits and every value", "why_tests_cant": "LONG_MIN and sign boundaries across all modes.", "anchors": ["ir/tv/tv.c:new_tarval_from_long", "ir/tv/tv.c:tarval_is_long", "ir/tv/tv.c:get_tarval_long", "ir/tv/strcalc.c:sc_val_from_long", "ir/tv/strcalc.c:sc_val_to_long"]}
{"id": "C15", "title": "Bit queries on target values", "statement": "get_tarval_popcount counts the one bits of the n-bit pattern; the highest-bit and lowest-bit queries return the position of the most/least significant one bit or -1; tarval_is_all_one, tarval_is_null and tarval_is_one hold exactly for the patterns they name.", "quantifier": "every integer mode and every value", "why_tests_cant": "For all patterns and sizes, including sizes that are not a multiple of the word size.", "anchors": ["ir/tv/tv.c:get_tarval_popcount", "ir/tv/tv.c:get_tarval_lowest_bit", "ir/tv/tv.c:get_tarval_highest_bit", "ir/tv/strcalc.c:sc_popcount", "ir/tv/strcalc.c:sc_get_highest_set_bit", "ir/tv/strcalc.c:sc_get_lowest_set_bit"]}
{"id": "C16", "title": "Byte extraction from target values", "statement": "get_tarval_sub_bits(tv, i) returns bits 8i..8i+7 of the n-bit pattern of tv, with bits at positions >= n read as zero.", "quantifier": "every integer mode, every value, every byte offset", "why_tests_cant": "The masking of the last partial byte matters only for odd sizes and negative values.", "anchors": ["ir/tv/tv.c:get_tarval_sub_bits", "ir/tv/strcalc.c:sc_sub_bits"]}
{"id": "C17", "title": "Mode limits", "statement": "For an n-bit integer mode get_mode_min, get_mode_max, get_mode_one, get_mode_null and get_mode_all_one are the smallest and largest representable value, 1, 0 and the all-ones pattern.", "quantifier": "every integer mode 1..136 bits (2.. for signed one)", "why_tests_cant": "Bit-level constants are generated by digit loops parametrised by the bit size.", "anchors": ["ir/tv/tv.c:init_mode_values", "ir/tv/strcalc.c:sc_min_from_bits", "ir/tv/strcalc.c:sc_max_from_bits"]}
{"id": "C18", "title": "smaller_mode, values_in_mode and is_reinterpret_cast promise lossless conversion", "statement": "If smaller_mode(sm, lm) holds for two integer modes then converting any value of sm to lm does not change the mathematical value; if values_in_mode(sm, lm) holds then converting any value of sm to lm and back yields the original value. is_reinterpret_cast(src, dst) holds for two's complement modes exactly if they have the same size, and then the conversion keeps every bit.", "quantifier": "every pair of integer modes, every value", "why_tests_cant": "Quantifies over all mode pairs and all values.", "anchors": ["ir/ir/irmode.c:smaller_mode", "ir/ir/irmode.c:values_in_mode", "ir/ir/irmode.c:is_reinterpret_cast"]}
{"id": "C19", "title": "Relation algebra", "statement": "get_negated_relation and get_inversed_relation denote the complement and the converse: for any two comparable-or-not operands a,b, a neg(r) b iff not (a r b), and a inv(r) b iff b r a.", "quantifier": "all 16 relations, all operand pairs of any partially ordered value set", "why_tests_cant": "The claim ranges over all operand values, including unordered (NaN) ones.", "anchors": ["ir/ir/irnode.c:get_negated_relation", "ir/ir/irnode.c:get_inversed_relation"]}
{"id": "C20", "title": "Multiplication by a constant via shifts and adds is exact", "statement": "The shift/add/sub sequence chosen by arch_dep_mul_to_shift for a constant c computes c*x modulo 2^n for every x.", "quantifier": "every mode of 4 to 255 bits with modulo-shift 0 or >= its size, every non-zero constant c, every x, every setting of the subtraction option and cost limits", "why_tests_cant": "The decomposition search has exponentially many shapes; a wrong shape only shows for specific constants.", "anchors": ["ir/ir/irarch.c:decompose_mul", "ir/ir/irarch.c:basic_decompose_mul", "ir/ir/irarch.c:value_to_condensed", "ir/ir/irarch.c:complement_condensed", "ir/ir/irarch.c:build_graph"]}
{"id": "C21", "title": "The multiplication decomposition search terminates", "statement": "The recursive decomposition of a constant into shifts, adds and subs terminates for every non-zero constant.", "quantifier": "every constant of every size", "why_tests_cant": "Termination is not observable by finite testing.", "anchors": ["ir/ir/irarch.c:decompose_mul", "ir/ir/irarch.c:calculate_gain"]}
{"id": "C22", "title": "Signed division by a constant via multiply-high is exact", "statement": "For every signed n-bit divisor d with |d| >= 2 that is not a power of two, the sequence built from the computed magic number returns x/d truncated towards zero for every x.", "quantifier": "every n >= 2, every divisor, every dividend", "why_tests_cant": "2^(2n) cases; the classical argument is number theoretic.", "anchors": ["ir/ir/irarch.c:magic", "ir/ir/irarch.c:replace_div_by_mulh"]}
{"id": "C23", "title": "Unsigned division by a constant via multiply-high is exact", "statement": "For every unsigned n-bit divisor d that is not a power of two, the multiply-high sequence returns floor(x/d) for every x.", "quantifier": "every n, every divisor, every dividend, every modulo-shift setting of the mode", "why_tests_cant": "2^(2n) cases; the classical argument is number theoretic.", "anchors": ["ir/ir/irarch.c:compute_unsigned_magic_info", "ir/ir/irarch.c:replace_div_by_mulh"]}
{"id": "C24", "title": "Division and remainder by a power of two via shifts", "statement": "For divisors +-2^k the shift sequences built for Div and Mod return the truncated quotient and remainder for every dividend, including the most negative value.", "quantifier": "every n, every k, both signs, every dividend, signed and unsigned", "why_tests_cant": "Rounding correction of negative dividends must be right for all values.", "anchors": ["ir/ir/irarch.c:arch_dep_replace_div_by_const", "ir/ir/irarch.c:arch_dep_replace_mod_by_const"]}
{"id": "C25", "title": "Known-bits analysis is sound for logical operations and conversions", "statement": "If each operand's run-time value is described by the analysis state of that operand, the result of And, Or, Eor, Not, Mux, Phi and Conv is described by the computed state.", "quantifier": "every size, every pair of abstract states and all concrete values they describe", "why_tests_cant": "Quantifies over pairs of abstract and concrete values.", "anchors": ["ir/ana/constbits.c:transfer"]}
{"id": "C26", "title": "Known-bits analysis is sound for arithmetic", "statement": "If each operand's run-time value is described by its analysis state, the result of Add, Sub, Minus and Mul is described by the computed state.", "quantifier": "every size, every pair of abstract states and all concrete values they describe", "why_tests_cant": "Carry propagation over partially known bits: exponentially many concretisations.", "anchors": ["ir/ana/constbits.c:transfer"]}
{"id": "C27", "title": "Known-bits analysis is sound for shifts", "statement": "If the operands' run-time values are described by their analysis states, the result of Shl, Shr and Shrs is described by the computed state.", "quantifier": "every mode size and modulo-shift, every pair of abstract states and all concrete values they describe", "why_tests_cant": "Partially known shift amounts concretise to sets of amounts.", "anchors": ["ir/ana/constbits.c:transfer"]}
{"id": "C28", "title": "Known-bits analysis decides comparisons soundly", "statement": "When the known-bits analysis declares the result of a Cmp known, every pair of concrete operands described by the states compares that way.", "quantifier": "every integer mode, relation, abstract state pair and concrete values", "why_tests_cant": "Quantifies over all concretisations.", "anchors": ["ir/ana/constbits.c:transfer"]}
{"id": "C29", "title": "Folding two range comparisons preserves the Boolean result", "statement": "When the boolean optimisation replaces (x rel1 c1) and/or (x rel2 c2) by another condition, both have the same truth value for every x; likewise for the combined zero tests of two values.", "quantifier": "every integer mode, every relation pair, all constants, all operand values", "why_tests_cant": "The rewrite table has dozens of rows each quantified over all constants and values.", "anchors": ["ir/opt/boolopt.c:bool_and", "ir/opt/boolopt.c:bool_or", "ir/opt/boolopt.c:find_cond_pair"]}
{"id": "C30", "title": "Comparisons decided from confirmed bounds are right", "statement": "When computed_value_Cmp_Confirm returns true or false for a comparison, the comparison has that value in every execution in which the confirmed relations hold.", "quantifier": "all relations, bounds and operand values (ordered or unordered)", "why_tests_cant": "Quantifies over all executions satisfying the confirmed constraints.", "anchors": ["ir/opt/opt_confirms.c:computed_value_Cmp_Confirm", "ir/opt/opt_confirms.c:compare_iv", "ir/opt/opt_confirms.c:get_interval"]}
{"id": "C31", "title": "Lowering a switch to comparisons preserves the jump target", "statement": "The comparison cascade created for a switch transfers control, for every selector value, to the target of the table entry whose interval contains the selector, and to the default target when there is none.", "quantifier": "every switch table with pairwise disjoint intervals, every selector value, signed and unsigned selector modes", "why_tests_cant": "Binary search over tables of arbitrary size.", "anchors": ["ir/lower/lower_switch.c:create_if_cascade", "ir/lower/lower_switch.c:create_case_cond", "ir/lower/lower_switch.c:normalize_table"]}
{"id": "C32", "title": "Switch normalisation preserves the selected entry", "statement": "After rebasing selector and table to start at zero in an unsigned mode with an out-of-bounds check, every selector value reaches the same target as before.", "quantifier": "every table of disjoint intervals, every selector value, every selector mode", "why_tests_cant": "Rebasing relies on modular wraparound for all values.", "anchors": ["ir/lower/lower_switch.c:normalize_switch", "ir/lower/lower_switch.c:create_out_of_bounds_check"]}
{"id": "C33", "title": "Priority queue returns elements in priority order", "statement": "pqueue_pop_front removes and returns an element of maximal priority among those present, and the multiset of elements changes exactly by that element; pqueue_put adds exactly the given element.", "quantifier": "every sequence of put and pop operations", "why_tests_cant": "Heap shape invariants must hold after every operation sequence.", "anchors": ["ir/adt/pqueue.c:pqueue_put", "ir/adt/pqueue.c:pqueue_pop_front", "ir/adt/pqueue.c:pqueue_heapify", "ir/adt/pqueue.c:pqueue_sift_up"]}
{"id": "C34", "title": "Double ended queue behaves as a sequence", "statement": "Appending and removing data at either end of a deq behaves like the corresponding operations on a byte sequence; the contents in the middle are never altered.", "quantifier": "every sequence of operations", "why_tests_cant": "Buffer boundaries occur at history-dependent positions.", "anchors": ["ir/adt/deq.c", "ir/adt/deq.h", "ir/adt/pdeq.h"]}
{"id": "C35", "title": "Open addressing hash sets implement a finite set", "statement": "After any sequence of insert, remove and find on an ir_nodeset/ir_nodehashmap/cpset hash table with a key comparison that is an equivalence compatible with the hash, find succeeds exactly for the elements inserted and not removed since (and delivers the data last stored), size is the number of elements, and iteration visits each exactly once; insertion and lookup always terminate.", "quantifier": "every sequence of operations, every hash function", "why_tests_cant": "Collision chains, tombstones, growth and shrinking depend on the whole history.", "anchors": ["ir/adt/hashset.c.h:hashset_insert", "ir/adt/hashset.c.h:hashset_remove", "ir/adt/hashset.c.h:hashset_find", "ir/adt/hashset.c.h:resize"]}
{"id": "C36", "title": "Triangular probing visits every bucket", "statement": "For a power-of-two number of buckets, the probe sequence of the hash set visits every bucket, whatever the start.", "quantifier": "every table size 2^k and every start bucket", "why_tests_cant": "A number-theoretic fact about all sizes.", "anchors": ["ir/adt/hashset.c.h:hashset_insert", "ir/adt/hashset.h:JUMP"]}
{"id": "C37", "title": "Linear hashing set implements a finite set", "statement": "set_insert/set_find/pset_insert/pset_find/pset_remove behave as a finite set modulo the comparison function after any sequence of operations, including while segments are being split.", "quantifier": "every sequence of operations and every hash/compare pair that agree", "why_tests_cant": "Splitting rehashes one bucket at a time; the invariant is global.", "anchors": ["ir/adt/set.c:MANGLEP(find)", "ir/adt/set.c:expand_table", "ir/adt/set.c:Hash"]}
{"id": "C38", "title": "Union-find maintains the generated equivalence", "statement": "After any sequence of uf_union and uf_find calls, two elements have the same representative if and only if they are related by the equivalence generated by the unions; uf_find terminates and does not change the equivalence.", "quantifier": "every sequence of unions and finds over any number of elements", "why_tests_cant": "Path compression rewrites the forest on each query.", "anchors": ["include/libfirm/adt/unionfind.h:uf_union", "include/libfirm/adt/unionfind.h:uf_find"]}
{"id": "C39", "title": "Bit sets implement subsets of {0..n-1}", "statement": "rbitset/bitset operations set, clear, flip, set_all, flip_all, and, or, xor, andnot, copy, is_set, is_empty, equal, contains, have_common and popcount compute the corresponding set operation for every bit position below the size and keep the unused bits zero.", "quantifier": "every size, every contents, every position", "why_tests_cant": "Sizes not a multiple of the word size have stray bits.", "anchors": ["ir/adt/raw_bitset.h", "ir/adt/bitset.h"]}
{"id": "C40", "title": "Bit set searches return the nearest position", "statement": "rbitset_next(_max) returns the least position >= pos with the requested value (or none/size), and rbitset_prev the greatest position < pos.", "quantifier": "every size, contents and start position", "why_tests_cant": "Word skipping and masks across boundaries.", "anchors": ["ir/adt/raw_bitset.h:rbitset_next", "ir/adt/raw_bitset.h:rbitset_next_max", "ir/adt/raw_bitset.h:rbitset_prev"]}
{"id": "C41", "title": "Bit set decrement", "statement": "bitset_minus1 turns a bit set denoting a non-zero number into the bit set denoting that number minus one.", "quantifier": "every size and contents", "why_tests_cant": "Borrow chains over words.", "anchors": ["ir/adt/raw_bitset.h:rbitset_minus1", "ir/adt/bitset.h:bitset_minus1"]}
{"id": "C42", "title": "Bipartite matching returns a matching", "statement": "The result of bipartite_matching is a matching: each left vertex is assigned at most one adjacent right vertex and no right vertex is used twice; and the matching is of maximum size.", "quantifier": "every bipartite graph", "why_tests_cant": "All graphs; maximality is a global property.", "anchors": ["ir/adt/bipartite.c:bipartite_matching"]}
{"id": "C43", "title": "Bit-twiddling helpers", "statement": "popcount, nlz, ntz, floor_po2/ceil_po2, is_po2_or_zero, round_up2 and the log2 helpers compute what their documentation says for every 32-bit argument within their stated precondition, in both the GNU-builtin and the portable variant.", "quantifier": "every 32-bit argument", "why_tests_cant": "2^32 (or 2^64) inputs.", "anchors": ["ir/adt/bitfiddle.h"]}
{"id": "C44", "title": "Floating point bytes round-trip", "statement": "Reading an IEEE bit pattern into a target value and writing it back gives the same bit pattern for finite values, infinities and NaN payloads.", "quantifier": "every exponent/mantissa size, every bit pattern", "why_tests_cant": "Subnormals and class boundaries.", "anchors": ["ir/tv/fltcalc.c:fc_val_from_bytes", "ir/tv/fltcalc.c:fc_val_to_bytes", "ir/tv/fltcalc.c:pack"]}
{"id": "C45", "title": "Floating point comparison is the IEEE order", "statement": "fc_comp returns unordered iff one operand is NaN, equal for numerically equal values (including +0 and -0), and otherwise the numeric order.", "quantifier": "every pair of values of any format", "why_tests_cant": "Sign, exponent and mantissa combine in all ways.", "anchors": ["ir/tv/fltcalc.c:fc_comp"]}
{"id": "C46", "title": "Floating point addition and subtraction are correctly rounded", "statement": "tarval_add/tarval_sub on finite floating point values return the exact sum/difference rounded to nearest-even in the format (the result is infinite exactly when rounding overflows).", "quantifier": "every format, every pair of finite values", "why_tests_cant": "2^128 operand pairs for double precision.", "anchors": ["ir/tv/fltcalc.c:_fadd", "ir/tv/fltcalc.c:normalize", "ir/tv/fltcalc.c:fc_add"]}
{"id": "C47", "title": "Floating point multiplication is correctly rounded", "statement": "tarval_mul on finite floating point values returns the exact product rounded to nearest-even in the format.", "quantifier": "every format, every pair of finite values", "why_tests_cant": "2^128 operand pairs for double precision.", "anchors": ["ir/tv/fltcalc.c:fc_mul", "ir/tv/fltcalc.c:normalize"]}
{"id": "C48", "title": "Floating point division is correctly rounded", "statement": "tarval_div on finite floating point values with non-zero divisor returns the exact quotient rounded to nearest-even in the format.", "quantifier": "every format, every pair of finite values", "why_tests_cant": "2^128 operand pairs for double precision.", "anchors": ["ir/tv/fltcalc.c:fc_div", "ir/tv/fltcalc.c:normalize"]}
{"id": "C49", "title": "Floating point format conversion is correctly rounded", "statement": "Casting a floating point target value to another format yields the value rounded to nearest-even there; casting to a wider format is exact.", "quantifier": "every pair of formats, every value", "why_tests_cant": "Subnormal results and double rounding.", "anchors": ["ir/tv/fltcalc.c:fc_cast", "ir/tv/fltcalc.c:normalize"]}
{"id": "C50", "title": "Float to integer conversion truncates", "statement": "Converting a finite floating point value to an integer mode truncates towards zero when the result is representable and reports overflow otherwise.", "quantifier": "every format, value and integer mode", "why_tests_cant": "Exponent ranges times mantissas.", "anchors": ["ir/tv/fltcalc.c:fc_flt2int", "ir/tv/tv.c:tarval_convert_to"]}
{"id": "C51", "title": "Default compound layout is valid", "statement": "default_layout_compound_type assigns each member of a struct an offset that is a multiple of its alignment, members do not overlap and stay within the type size, the size is a multiple of the type's alignment, and in a union all members start at 0 and fit.", "quantifier": "every list of member sizes and alignments", "why_tests_cant": "Arbitrary member lists.", "anchors": ["ir/tr/type.c:default_layout_compound_type"]}
{"id": "C52", "title": "LEB128 size prediction", "statement": "The sizes computed for unsigned and signed LEB128 operands in the DWARF output equal the number of bytes the assembler emits for the shortest encoding.", "quantifier": "every 32-bit unsigned and 64-bit signed value", "why_tests_cant": "All values; sign-bit boundary cases.", "anchors": ["ir/be/bedwarf.c:get_uleb128_size", "ir/be/bedwarf.c:get_sleb128_size"]}
{"id": "C53", "title": "Exported strings read back unchanged", "statement": "Writing a string or identifier to the textual IR and reading it back yields the same string and leaves the reader positioned after it.", "quantifier": "every NUL-free byte string and any following text", "why_tests_cant": "Escaping over all strings.", "anchors": ["ir/ir/irio.c:write_string", "ir/ir/irio.c:read_string"]}
{"id": "C54", "title": "Exported numbers read back unchanged", "statement": "Writing a long, int, unsigned or size_t to the textual IR and reading it back yields the same number.", "quantifier": "every value of the type", "why_tests_cant": "All values including the extremes.", "anchors": ["ir/ir/irio.c:write_long", "ir/ir/irio.c:read_long", "ir/ir/irio.c:write_size_t", "ir/ir/irio.c:read_size_t"]}
{"id": "C55", "title": "PBQP reductions preserve the optimum", "statement": "Normalising an edge and eliminating a node of degree 0, 1 or 2 preserves the minimal total cost, and back-propagation extends an optimal selection of the reduced problem to an optimal selection of the original.", "quantifier": "every cost vector and matrix, including infinite costs, as long as no finite sum of costs reaches INF_COSTS; every order of reductions", "why_tests_cant": "Optimality over all selections.", "anchors": ["ir/kaps/optimal.c:apply_RI", "ir/kaps/optimal.c:apply_RII", "ir/kaps/optimal.c:simplify_edge", "ir/kaps/matrix.c", "ir/kaps/vector.c"]}
{"id": "C56", "title": "Growable arrays keep their contents", "statement": "Resizing an ARR_F array keeps the first min(old,new) elements, sets the length, and the allocated capacity is never smaller than the length; amortised growth never loses appended elements.", "quantifier": "every sequence of resize/append/shrink/store operations with lengths up to 2^62", "why_tests_cant": "All histories.", "anchors": ["ir/adt/array.c:ir_arr_resize", "include/libfirm/adt/array.h:ARR_APP1"]}
{"id": "C57", "title": "Magnitude of a target value", "statement": "get_tarval_magnitude returns the least number of bits k >= 1 such that the value is reconstructed from its k low bits by sign extension.", "quantifier": "every integer mode, every value", "why_tests_cant": "Minimality is a universally quantified claim over all smaller k and all values.", "anchors": ["ir/tv/tv.c:get_tarval_magnitude", "ir/tv/tv_t.h:get_tarval_magnitude"]}
{"id": "C58", "title": "Bit set range updates", "statement": "rbitset_set_range and bitset_mod_range set or clear exactly the positions of the given half-open range (clipped to the size) and touch nothing else.", "quantifier": "every size, contents and range", "why_tests_cant": "Ranges starting and ending in arbitrary words, and ending exactly at the size.", "anchors": ["ir/adt/raw_bitset.h:rbitset_set_range", "ir/adt/bitset.h:bitset_mod_range"]}
{"id": "C59", "title": "Pointer sets distinguish pointers", "statement": "After any sequence of operations on a pset_new set, pset_new_contains holds exactly for the pointers inserted and not removed since.", "quantifier": "every sequence of operations and all pointers", "why_tests_cant": "Depends on the low 32 bits of pointers on the host.", "anchors": ["ir/adt/pset_new.c", "ir/adt/hashset.c.h:hashset_insert"]}
{"id": "C60", "title": "Brute force PBQP solver is optimal", "statement": "solve_pbqp_brute_force computes a selection of minimal total cost, and the solution value it reports is that cost, whatever the order in which edges and nodes are reduced and alternatives tried.", "quantifier": "every PBQP problem with at least one alternative per node, including infeasible ones", "why_tests_cant": "Optimality is a statement about all (exponentially many) selections.", "anchors": ["ir/kaps/brute_force.c:solve_pbqp_brute_force", "ir/kaps/brute_force.c:get_minimal_alternative", "ir/kaps/optimal.c:select_alternative", "ir/kaps/optimal.c:determine_solution"]}
{"id": "C61", "title": "Heuristic PBQP solver reports the cost of its selection", "statement": "After solve_pbqp_heuristical (or the copy-coalescing variants) every node has an existing alternative selected, and if the reported solution is finite it is exactly the cost of the selection in the original problem.", "quantifier": "every PBQP problem, every sequence of reductions, merges and heuristic choices", "why_tests_cant": "The reported value is accumulated from normalised matrices; that it equals the cost in the original problem depends on every step taken.", "anchors": ["ir/kaps/heuristical.c:solve_pbqp_heuristical", "ir/kaps/optimal.c:select_alternative", "ir/kaps/optimal.c:back_propagate"]}
{"id": "C62", "title": "Building a PBQP adds up the costs", "statement": "A problem built by any sequence of add_node_costs and add_edge_costs calls, with edges in either direction, parallel edges and self loops, assigns every selection the sum of all added costs, and keeps at most one edge per pair of nodes.", "quantifier": "every sequence of calls meeting the assertions, every selection", "why_tests_cant": "Sequences of calls are unbounded.", "anchors": ["ir/kaps/kaps.c:add_node_costs", "ir/kaps/kaps.c:add_edge_costs", "ir/kaps/pbqp_edge.c:alloc_edge", "ir/kaps/matrix.c:pbqp_matrix_transpose"]}
{"id": "C63", "title": "Merging PBQP nodes keeps all costs", "statement": "When every alternative of one node admits at most one finite alternative of its neighbour, reconnecting the neighbour's edges to the node changes the cost of no selection, and the mapping used has no uninitialised entry right after the edge was simplified.", "quantifier": "every state, edge, and selection", "why_tests_cant": "Correct only because infinite entries absorb the other costs.", "anchors": ["ir/kaps/optimal.c:merge_source_into_target", "ir/kaps/optimal.c:merge_target_into_source", "ir/kaps/optimal.c:simplify_edge"]}
{"id": "C64", "title": "Folding a node to a constant or an operand preserves its value", "statement": "Whatever values the leaves have and whatever sound knowledge about bits, ranges and confirmed values is available, a constant returned by computed_value is the value of the node, and a node returned by equivalent_node has the same value as the original and no undefined behaviour the original did not have.", "quantifier": "every expression over integer modes of any size, every environment, every sound bit information", "why_tests_cant": "The rules match patterns several nodes deep for every mode; a wrong rule shows only for special operand values.", "anchors": ["ir/ir/iropt.c:computed_value", "ir/ir/iropt.c:equivalent_node", "ir/ir/iropt.c:is_oversize_shift", "ir/ir/iropt.c:equivalent_node_Conv", "ir/ir/iropt.c:equivalent_node_Mux"]}
{"id": "C65", "title": "Possible relations between two nodes", "statement": "ir_get_possible_cmp_relations never excludes the relation that actually holds between the values of two nodes, and value_not_null and complement_values are never wrong.", "quantifier": "every pair of expressions, every environment, every sound bit information", "why_tests_cant": "An excluded relation turns a comparison into a constant; wrong for boundary values only.", "anchors": ["ir/ir/iropt.c:ir_get_possible_cmp_relations", "ir/ana/constbits.c", "ir/ir/iropt.c:complement_values", "ir/opt/opt_confirms.c:value_not_null"]}
{"id": "C66", "title": "Rewriting of bitwise operations", "statement": "If transform_node_And, transform_node_Or, transform_node_Eor or transform_node_Not replaces a node, the new expression computes the same value as the old one in every execution, and is defined whenever the old one is.", "quantifier": "for all integer modes (any size, signedness and modulo-shift), all operand expressions, all values of the leaves and all sound bit information", "why_tests_cant": "the four functions apply some sixty rewrite rules on terms of unbounded depth and on values of up to 2^64 each; which rule applies depends on the shape of both operands, and tests reach only a few shapes with a few values", "anchors": ["ir/opt/iropt.c: transform_node_And, transform_node_Or_, transform_node_Eor_, transform_node_Not, transform_bitwise_distributive, transform_node_bitop_shift, fold_constant_associativity"]}
{"id": "C67", "title": "Rewriting of shifts", "statement": "If transform_node_Shl, transform_node_Shr or transform_node_Shrs replaces a node, the new expression computes the same value as the old one in every execution, and is defined whenever the old one is; counts are understood modulo the modulo-shift of the mode.", "quantifier": "for all integer modes of value and count, all operand expressions, all values of the leaves and all sound bit information", "why_tests_cant": "the result depends on the relation between three sizes (value, count, modulo-shift) and on the counts; the usual modes of one target exercise only one relation", "anchors": ["ir/opt/iropt.c: transform_node_Shl, transform_node_Shr, transform_node_Shrs, transform_node_shift, transform_node_shl_shr, transform_node_shift_modulo, transform_node_shift_and, transform_node_shift_bitop"]}
{"id": "C68", "title": "Removing conversions", "statement": "transform_node_Conv replaces a conversion between integer modes only by an expression of the same value; a conversion by way of a third mode is removed only when the detour changes no value, and is always removed then, unless the first and the middle mode hold the same numbers.", "quantifier": "for all triples of integer modes (any size and signedness) and all values", "why_tests_cant": "there are unboundedly many triples of modes; the decision depends on the order of three sizes and on two signs", "anchors": ["ir/opt/iropt.c: transform_node_Conv, may_leave_out_middle_conv, apply_conv_on_mux"]}
{"id": "C69", "title": "Rewriting of additions, subtractions and negations", "statement": "transform_node_Add, transform_node_Sub and transform_node_Minus replace a node only by an expression that computes the same value modulo the size of the mode and introduces no undefined behaviour; a confirmed bound is moved over an addition only when it still holds for the sum.", "quantifier": "for all integer modes, all operand expressions, all values of the unknowns, and all sound bit information", "why_tests_cant": "some forty rules are tried in order on operand trees of any depth; the wrong results need particular bit patterns in two or three unknowns of 32 or 64 bits", "anchors": ["ir/opt/iropt.c: transform_node_Add, transform_node_Sub, transform_node_Minus, can_negate_cheaply, const_negate"]}
{"id": "C70", "title": "Rewriting of multiplications, divisions and remainders", "statement": "transform_node_Mul, transform_node_Div and transform_node_Mod replace a node only by an expression that computes the same value, and never turn a defined computation into a division by zero; in particular (a/b)*b = a - a%b, (a % c1) % c2 = a % c2 for c2 dividing c1, and a remainder with a known quotient, for both signs of all operands.", "quantifier": "for all integer modes, all operand expressions, all values with nonzero divisors, and all sound bit information", "why_tests_cant": "the identities have to hold for all pairs of signed values including the minimum of the mode and -1", "anchors": ["ir/opt/iropt.c: transform_node_Mul, transform_node_Div, transform_node_Mod, is_zero_or_all_one"]}
{"id": "C71", "title": "Comparisons keep their truth value when rewritten", "statement": "Whatever transform_node_Cmp returns for an integer comparison (after any number of passes: dropping conversions, removing equal operations on both sides, moving constants, shrinking constants using known bits, turning shifts and masks into other masks) has the same truth value as the comparison.", "quantifier": "all relations, integer modes, operand expressions, values of the leaves, sound known-bits information and numbers of passes", "why_tests_cant": "the rules combine: one pass prepares the operands of the next, and the wrong cases need particular known bits, widths or extreme constants", "anchors": ["ir/opt/iropt.c:transform_node_Cmp", "ir/opt/iropt.c:get_complementary_relations", "ir/opt/iropt.c:ir_get_possible_cmp_relations"]}
{"id": "C72", "title": "Known bits describe the value of every node", "statement": "The bit information computed for a node describes the value the node has in every execution: bits reported as zero are zero, bits reported as one are one; a node reported as constant has that value; no node that is evaluated is reported as undefined.", "quantifier": "all expressions built from the analysed operations, all modes, and all values of parameters and loads", "why_tests_cant": "an error shows only for expressions that combine several operations, and for values in which just the wrongly known bit matters", "anchors": ["ir/ana/constbits.c:transfer", "ir/ana/constbits.c:get_bitinfo_recursive"]}
{"id": "C73", "title": "Rewriting of selections", "statement": "Whatever transform_node_Mux returns for a selection that equivalent_node keeps (absolute value, 0/1 and 0/-1 results of comparisons computed with shifts, selections by a single bit, exchange of the operands, nested selections, selections of truth values) has the same value as the selection, and the assertion of the bit rule does not fail.", "quantifier": "all integer modes of the operands and of the compared values, all selectors, values of the leaves and sound known-bits information", "why_tests_cant": "the replacement computes with a sign bit, so it is wrong only for particular combinations of relation, signedness, widths and extreme values", "anchors": ["ir/opt/iropt.c:transform_node_Mux", "ir/opt/iropt.c:transform_Mux_set", "ir/opt/iropt.c:ir_mux_is_abs"]}
{"id": "C74", "title": "Known bits of graphs with control flow", "statement": "If the known-bits analysis ends in a state that no longer changes, then in every execution of the function the bits of every data node, including Phi nodes in loops, describe the value the node has at that moment; a block marked as unreachable is never entered, a jump marked as unreachable never taken, and a jump marked as certain is the only one of its Cond that is taken.", "quantifier": "all graphs with any control flow (loops, irreducible graphs), all states that are fixpoints, all executions of any length and all values of parameters, loads and calls", "why_tests_cant": "optimistic analyses go wrong only in loops, for values that come up after several iterations; the number of graphs and executions is unbounded", "anchors": ["ir/ana/constbits.c:transfer", "ir/ana/constbits.c:verify_constbits_walker"]}
{"id": "C75", "title": "The known-bits iteration is ascending and bounded", "statement": "Whatever the order in which nodes are calculated, the assertions in set_bitinfo hold (a state only ever loses information), every state changes at most twice per bit, no state is contradictory, the states stay below every fixpoint, and so the result does not depend on the order.", "quantifier": "all graphs, all sequences of calls of transfer, with operands read at any moment during the call", "why_tests_cant": "the assertions depend on the order of all calls; one non-monotone operation in one loop is enough to break them", "anchors": ["ir/ana/constbits.c:set_bitinfo", "ir/ana/constbits.c:transfer", "ir/ana/constbits.c:calc_bitinfo"]}
{"id": "C76", "title": "The known-bits analysis ends with right bits", "statement": "constbits_analyze ends for every graph, its result never says less than any fixpoint of transfer, and the bits it stores for the nodes describe all values the nodes have in all executions (verify_constbits checks in debug builds that the result is a fixpoint).", "quantifier": "all graphs, all executions of them", "why_tests_cant": "whether the demand-driven iteration reaches a fixpoint depends on the interplay of recursion, in-flight and unstable nodes over arbitrary cyclic graphs; random programs hardly ever show the failing patterns", "anchors": ["ir/ana/constbits.c:constbits_analyze", "ir/ana/constbits.c:get_bitinfo_recursive", "ir/ana/constbits.c:calc_bitinfo", "ir/ana/constbits.c:trigger_users", "ir/ana/constbits.c:verify_constbits", "ir/ir/irgwalk.c:irg_walk_2_post"]}
{"id": "C77", "title": "The value range analysis is sound", "statement": "After set_vrp_data, every value a node has at any time of any execution agrees with the node's bits_set and bits_not_set, lies between range_bottom and range_top if the node has a range, and not between them if it has an antirange.", "quantifier": "all graphs (with loops), all orders of the walk and of the work list, all executions", "why_tests_cant": "the result is accumulated over many updates of nodes of cyclic graphs; some of the ways old and new information are combined are wrong by themselves, and it takes an invariant over all runs to see that they are never used", "anchors": ["ir/ana/vrp.c:vrp_update_node", "ir/ana/vrp.c:vrp_first_pass", "ir/ana/vrp.c:set_vrp_data", "include/libfirm/vrp.h"]}
{"id": "C78", "title": "Conclusions from value ranges are right", "statement": "The relation vrp_cmp returns for two nodes holds between all values the nodes have in all executions, and a constant computed_value takes from the analysis is the only value the node ever has.", "quantifier": "all graphs, all pairs of nodes, all executions", "why_tests_cant": "a wrong relation makes the optimiser remove a live branch only for the values outside the tested ones", "anchors": ["ir/ana/vrp.c:vrp_cmp", "ir/opt/iropt.c:computed_value"]}
{"id": "C79", "title": "The value range analysis ends with a stable result", "statement": "set_vrp_data terminates, none of its assertions fails, and at the end no update of a node changes anything.", "quantifier": "all graphs whose constant shift counts are not negative and whose Phis have operands", "why_tests_cant": "termination and the assertion that no bit is set and not set at once depend on all updates of all nodes in loops", "anchors": ["ir/ana/vrp.c:set_vrp_data", "ir/ana/vrp.c:vrp_update_node", "ir/ana/vrp.c:vrp_first_pass"]}
{"id": "C80", "title": "Double word lowering: expressions", "statement": "Lowering an expression over integers of twice the word size yields, for every value of its leaves, exactly the low and the high word of its value, and every other value stays as it was; no node that is created has undefined behaviour. Constants, Minus, Not, Add, Sub, And, Or, Eor, Shl, Shr, Shrs, Conv, Cmp and Mux are lowered without a library call.", "quantifier": "all expressions, all word sizes that are powers of two (shifts) or arbitrary (others), all values of the leaves", "why_tests_cant": "The carries and the shift counts near the word size make the interesting inputs rare; there are 2^128 pairs of operands for each operation, and trees of operations on top.", "anchors": ["ir/lower/lower_dw.c:331-345", "ir/lower/lower_dw.c:807-1061", "ir/lower/lower_dw.c:1292-1450", "ir/lower/lower_dw.c:2329-2367"]}
{"id": "C81", "title": "Double word lowering: comparisons and conditional jumps", "statement": "A comparison of two double words decides as the comparison of the values for each of the 16 relations, both when it becomes a boolean value and when it becomes control flow; the equality tests by Eor and Or decide the same.", "quantifier": "all relations, all modes of double word size, signed and unsigned, all operands", "why_tests_cant": "The outcome depends on the combination of the relations of both words with the requested relation; tests of a few relations miss combinations.", "anchors": ["ir/lower/lower_dw.c:1127-1287", "ir/lower/lower_dw.c:1391-1436"]}
{"id": "C82", "title": "Double word lowering: memory", "statement": "The two Loads made for a Load of a double word read exactly its two words, and the two Stores have exactly the effect of the Store of the double word, for targets of either endianness.", "quantifier": "all memories, addresses (also around the end of the address space), sizes of words and both orders of bytes", "why_tests_cant": "Wrong word order shows only on targets of the other endianness, which tests on one machine do not reach.", "anchors": ["ir/lower/lower_dw.c:350-466"]}
{"id": "C83", "title": "Builtins that count bits: double words and wider types", "statement": "ffs, ctz, clz, popcount, parity and bswap of a double word are computed correctly from the results for the words; a builtin that is replaced by the one for a larger type yields the result for the smaller type.", "quantifier": "all operands, all word sizes, all implementations of the word builtins that are right", "why_tests_cant": "Operands with an empty word or a sign bit are single points in the space of 2^64 operands.", "anchors": ["ir/lower/lower_dw.c:2106-2223", "ir/lower/lower_builtins.c:67-103"]}
{"id": "C84", "title": "Immediate dominators", "statement": "For each reachable block other than the start block, get_Block_idom after compute_doms returns the immediate dominator: a different block that is on every path from the start block, and that every other such block dominates. The start block and unreachable blocks have none; get_Block_dom_depth is the number of dominators, or -1.", "quantifier": "all control flow graphs with consistent out edges, with any loops (also irreducible ones), unreachable blocks, Bad predecessors and blocks kept alive", "why_tests_cant": "The algorithm is right only through the theory of semidominators with path compression and shared bucket links; mistakes show on particular irreducible graphs.", "anchors": ["ir/ana/irdom.c:377-408", "ir/ana/irdom.c:456-484", "ir/ana/irdom.c:500-606"]}
{"id": "C85", "title": "Questions about dominance", "statement": "block_dominates(a, b) is true exactly if every path from the start block to b contains a; ir_deepest_common_dominator returns the common dominator that all common dominators dominate and always terminates.", "quantifier": "all graphs with less than 2^32 blocks, all pairs of reachable blocks", "why_tests_cant": "The test compares numbers of a tree walk with wrapping arithmetic; whether the intervals are nested properly in all trees is a statement about all trees.", "anchors": ["ir/ana/irdom.c:159-193", "ir/ana/irdom.c:234-248", "ir/ana/irdom.c:289-312"]}
{"id": "C86", "title": "Dominance frontiers", "statement": "ir_get_dominance_frontier(x) contains exactly the blocks y with a reachable predecessor that x dominates, while x does not strictly dominate y.", "quantifier": "all graphs, all reachable blocks x and all y", "why_tests_cant": "The definition quantifies over all paths, the code uses only the tree and immediate dominators.", "anchors": ["ir/ana/domfront.c:26-74"]}
{"id": "C87", "title": "Postdominators", "statement": "For each block from which the end block (or a block that is kept alive in an endless loop) can be reached, get_Block_ipostdom returns the immediate postdominator, and block_postdominates decides postdominance; endless loops that are kept alive count as leading to the end block exactly if they do not get there by control flow.", "quantifier": "all graphs with consistent out edges in which endless loops are kept alive", "why_tests_cant": "Endless loops with several kept blocks, entered from several places, are rare in test programs.", "anchors": ["ir/ana/irdom.c:207-214", "ir/ana/irdom.c:414-454", "ir/ana/irdom.c:608-710"]}
{"id": "C88", "title": "Depth first search of blocks", "statement": "dfs_new numbers exactly the reachable blocks and the end block, without gaps in preorder and postorder; dfs_get_edge_kind says back exactly for edges to an ancestor in the tree or the block itself, fwd for edges to a descendant that are no tree edges, cross for the rest; without back edges the postorder is a reverse topological order, so every cycle has a back edge.", "quantifier": "all finite graphs, also irreducible ones, with any order of successors", "why_tests_cant": "Ancestors are recognised by intervals of numbers whose upper bound is a maximum over all successors, also over those that were visited before; whether that is exact depends on the whole graph.", "anchors": ["ir/ana/dfs.c:58-125", "ir/ana/dfs.c:132-173", "ir/ana/dfs_t.h:60-75"]}
{"id": "C89", "title": "Liveness check", "statement": "lv_chk_bl_xxx answers exactly whether a value is live in, at the end and out of a block, in the sense of paths from the block to a use that do not contain the block of the definition; the assertions on the map of numbers hold.", "quantifier": "all graphs with less than 2^31 blocks in which the end block is reachable, all values whose definition dominates their uses, all blocks", "why_tests_cant": "The answer comes from precomputed sets (closure without back edges, chains of back edge targets, a walk that skips subtrees of the dominator tree); the argument that these suffice, also for irreducible graphs, is a theorem about all depth first numberings.", "anchors": ["ir/ana/irlivechk.c:93-189", "ir/ana/irlivechk.c:191-237", "ir/ana/irlivechk.c:247-426"]}
{"id": "C90", "title": "Limits of a floating point format", "statement": "fc_get_max is the largest finite number of the format in magnitude, fc_get_small the smallest normalised number, and fc_get_epsilon the distance from one to the next larger number of the format.", "quantifier": "all formats with at least two exponent bits and one fraction bit; for the epsilon formats whose bias exceeds the number of fraction bits", "why_tests_cant": "The claims compare with all numbers of all formats.", "anchors": ["ir/tv/fltcalc.c:795-804", "ir/tv/fltcalc.c:806-815", "ir/tv/fltcalc.c:817-828"]}
{"id": "C91", "title": "Construction of SSA form", "statement": "A graph that a front end builds with set_value, get_value, add_immBlock_pred and mature_immBlock, in any order of the calls, computes what the front end asked for: when a run reaches a read of a variable, the node that the read returned has the value that was last assigned to the variable on this run. Phi nodes that remain have one operand per predecessor; Phi nodes of memory are kept alive.", "quantifier": "all sequences of calls, all control flow graphs (also irreducible and with unreachable blocks), all numbers of variables, all values and all runs of the finished program", "why_tests_cant": "The Phi nodes are made while the graph is incomplete, completed later in an order the front end chooses, and removed when they turn out to be unnecessary, in the middle of the recursion that reads further variables; that no table entry gets stale is a property of all interleavings.", "anchors": ["ir/ir/ircons.c:58-146", "ir/ir/ircons.c:158-262", "ir/ir/ircons.c:361-465"]}
{"id": "C92", "title": "Termination of SSA construction", "statement": "get_value and mature_immBlock terminate if no chain of matured blocks with a single predecessor closes to a cycle; the removal of Phi nodes terminates always. With such a cycle get_value never returns.", "quantifier": "all graphs a front end can build", "why_tests_cant": "Reading recurses through predecessors, around loops, and the removal of a Phi recurses to other Phi nodes; the measure depends on how many blocks have no entry in the table yet.", "anchors": ["ir/ir/ircons.c:58-98", "ir/ir/ircons.c:158-207", "ir/ir/ircons.c:209-262"]}
{"id": "C93", "title": "RISC-V constants and offsets", "statement": "The instructions the RISC-V backend emits for a constant, for the address of a frame entity, for a load or store with a large offset, for a change of the stack pointer and for the prologue with frame pointer compute exactly the wanted value; every immediate fits into its field; a constant needs at most two instructions.", "quantifier": "all 32 bit constants and offsets, all register contents", "why_tests_cant": "A lower half with bit 11 set makes the upper half one larger; whether all 2^32 values come out right, also those near the wrap around, cannot be sampled.", "anchors": ["ir/be/riscv/riscv_bearch.c:95-107", "ir/be/riscv/riscv_finish.c:27-166", "ir/be/riscv/riscv_bearch.c:236-335", "ir/be/riscv/riscv_transform.c:381-391", "ir/be/riscv/riscv_transform.c:627-652"]}
{"id": "C94", "title": "MIPS and SPARC constants and offsets", "statement": "The instructions the MIPS and SPARC backends emit for constants, for additions and bit operations with constants (also with complemented operand), and for frame offsets and changes of the stack pointer compute exactly the wanted value, with immediates that fit into their fields.", "quantifier": "all 32 bit constants and offsets, all register contents", "why_tests_cant": "Fields are partly zero extended, partly sign extended, and 4096 fits only with the other sign.", "anchors": ["ir/be/mips/mips_transform.c:71-79", "ir/be/mips/mips_transform.c:308-365", "ir/be/mips/mips_transform.c:612-641", "ir/be/sparc/sparc_finish.c:133-195", "ir/be/sparc/sparc_transform.c:357-392", "ir/be/sparc/sparc_transform.c:600-612", "ir/be/sparc/sparc_transform.c:964-1013", "ir/be/sparc/sparc_transform.c:1116-1132"]}
{"id": "C95", "title": "ARM immediate operands", "statement": "A word is split into at most four operands of eight rotated bits; the instructions for a constant compute it; an operand chosen for a constant in an addition, a bitwise and or a comparison stands for the constant; comparison with the negated constant sets all four flags as the comparison does.", "quantifier": "all 32 bit constants and all register contents", "why_tests_cant": "The flags of cmp and cmn differ for exactly two constants, and the loop that splits a word writes to arrays of four elements.", "anchors": ["ir/be/arm/arm_transform.c:76-141", "ir/be/arm/arm_transform.c:281-333", "ir/be/arm/arm_transform.c:1231-1243", "ir/be/arm/arm_emitter.c:177-184"]}
{"id": "C96", "title": "ARM frame offsets", "statement": "Large offsets of frame addresses, loads and stores, and of changes of the stack pointer are split into encodable parts whose sum is the offset.", "quantifier": "all 32 bit offsets, all register contents", "why_tests_cant": "The sign is handled separately from the magnitude, in three places in different ways.", "anchors": ["ir/be/arm/arm_optimize.c:25-164", "ir/be/arm/arm_optimize.c:181-208"]}
{"id": "C97", "title": "64 bit arithmetic with carry", "statement": "Addition, subtraction, negation and multiplication of 64 bit values on ARM, and addition, subtraction and negation on SPARC, made of 32 bit operations with carry, give the right low and high word.", "quantifier": "all pairs of 64 bit values", "why_tests_cant": "2^128 pairs; the carry of a subtraction has opposite meanings on the two machines.", "anchors": ["ir/be/arm/arm_lower64.c:22-106", "ir/be/sparc/sparc_lower64.c:20-79"]}
{"id": "C98", "title": "Order of a schedule", "statement": "After any sequence of insertions and removals, sched_comes_before answers whether one instruction of a block stands before another; time steps strictly increase along the list; renumbering keeps the list as it is.", "quantifier": "all sequences of insertions before, insertions after and removals, in any number of blocks", "why_tests_cant": "Time steps are averages of neighbours; when there is no room the whole block is renumbered, and the numbers may overflow: only long sequences reach that.", "anchors": ["ir/be/besched.c:56-146", "ir/be/besched.h:87-101"]}
{"id": "C99", "title": "Liveness sets", "statement": "be_liveness_compute_sets gives each value at each block exactly the flags live-in, live-end and live-out that its uses imply; incremental updates (introduce, remove, update) keep this; the result agrees with the liveness check that works without sets.", "quantifier": "all control flow graphs, all values with all their uses, all sequences of changes", "why_tests_cant": "The recursion stops early at blocks already marked; the sorted arrays grow and shrink in place; both depend on the order in which values and uses are visited.", "anchors": ["ir/be/belive.c:34-312", "ir/be/belive.c:315-360"]}
{"id": "C100", "title": "Interference of values", "statement": "Two values interfere if and only if there is a program point at which both need a register; be_value_live_after answers whether a value is live after an instruction; be_liveness_nodes_live_before yields exactly the live values before an instruction.", "quantifier": "all scheduled programs in strict SSA form", "why_tests_cant": "The code only looks at dominance of the definitions and at the uses in one block; that this covers all points of all paths, loops included, is an argument about all programs.", "anchors": ["ir/be/belive.c:362-446", "ir/be/belive.c:448-511"]}
{"id": "C101", "title": "Heights and dependencies in a block", "statement": "heights_new gives each node the length of the longest chain of users in its block; heights_reachable_in_block answers exactly whether one node depends on another inside their block, for any sequence of questions; heights_recompute_block does the same for a changed block.", "quantifier": "all graphs without cycles in a block, all sequences of questions", "why_tests_cant": "The search is cut by heights and by marks left from earlier searches; both are right only if an invariant over all earlier calls holds.", "anchors": ["ir/ana/heights.c:61-191"]}
{"id": "C102", "title": "Lowering of Perm nodes", "statement": "The copies and exchanges that replace a Perm node put every value into the wanted register and change no other register except one that is free or dies at the Perm.", "quantifier": "all permutations, chains and cycles over any number of registers, with and without copies, with and without free register", "why_tests_cant": "The exchanges halve each cycle repeatedly while the pairs are changed in place; the number of shapes grows with the factorial of the number of registers.", "anchors": ["ir/be/belower.c:139-321"]}
{"id": "C103", "title": "Alias analysis", "statement": "If get_alias_relation answers \"no alias\" for two accesses then there is no byte that both accesses touch, in every execution that follows the rules of the language.", "quantifier": "all address computations from additions, subtractions, members, elements, variables, constants, allocations and unknown pointers; all sizes; all executions", "why_tests_cant": "A wrong \"no alias\" lets Loads move over Stores; it needs a certain pair of addresses and values and shows as a rare wrong result.", "anchors": ["ir/ana/irmemory.c:76-475"]}
{"id": "C104", "title": "Usage of variables", "statement": "If the analysis does not mark a variable as \"address taken\" then its address never gets into memory, into a called function or into a value that is not computed by address arithmetic; if it does not mark it as written (read) then it is never written (read).", "quantifier": "all programs, all variables, all runs", "why_tests_cant": "Stores to variables that are never read are removed and Loads from variables that are never written are replaced; a missed use shows only in programs with exactly this use.", "anchors": ["ir/ana/irmemory.c:519-850"]}
{"id": "C105", "title": "Coloring of registers", "statement": "When the chordal coloring is done, two values that need a register at the same point of the program have different, allocatable registers, and registers that were fixed before are kept; if at no point more values are live than there are registers, and each value is used, then the coloring finds a register for each value.", "quantifier": "all programs in SSA form, all control flow graphs, all schedules, all sets of allocatable registers", "why_tests_cant": "Two live values in the same register give a wrong result only on the path where both are needed; programs are large and the colors depend on the order of everything.", "anchors": ["ir/be/bechordal.c:32-35", "ir/be/bechordal.c:320-392", "ir/be/bechordal_common.c:43-120"]}
{"id": "C106", "title": "Reconstruction of SSA form", "statement": "After a value got further definitions (copies made by the spiller, by the register allocator or by splitting), the reconstruction rewires each use to a node that has, in each execution, the value of the definition executed last before the use; it inserts Phi nodes in the iterated dominance frontier of the copies only, one in a block at most, and fails no assertion if each use is executed after a definition.", "quantifier": "all programs in SSA form, all control flow graphs, all sets of copies, all executions", "why_tests_cant": "A wrong Phi or a use that gets the wrong copy reads a stale register on one path through the program only.", "anchors": ["ir/be/bessaconstr.h:11-33", "ir/be/bessaconstr.c:100-250", "ir/be/bessaconstr.c:250-550"]}
{"id": "C107", "title": "Don't care bits and constants found with them", "statement": "A bit of a node that the analysis marks as irrelevant has no influence on what the program does: if two executions differ in such bits only, then all relevant bits of all nodes are the same. The analysis ends. Replacing each node whose relevant bits are known by a constant leaves the path through the program, the selectors of jumps, the operands of memory operations and calls, and the returned values unchanged.", "quantifier": "all graphs, all masks, all known bits, all executions, all values of the nodes", "why_tests_cant": "A mask with a missing bit changes a result only for operands in which this bit differs and in which the rest of the program exposes it.", "anchors": ["ir/ana/dca.h:6-10", "ir/ana/dca.c:35-89", "ir/ana/dca.c:91-398", "ir/ana/dca.c:400-431", "ir/opt/occult_const.c:35-99"]}
{"id": "C108", "title": "Machine code of the IA-32 encoder", "statement": "The bytes that the encoder appends for a node are, read as IA-32 machine code, the instruction that the node stands for: the same operation, operand size, registers, address and immediate operand, whatever follows behind them; the short forms mean the same as the long ones. Sequences of several instructions compute what the node stands for: conditional jumps get to the right block for all flags and layouts, Setcc yields 0 or 1, Minus64 negates a pair of registers for every assignment of registers, CopyB_i copies exactly the given number of bytes, padding has no effect and the given length.", "quantifier": "all registers, addresses, displacements, immediate operands, sizes, flags, layouts, numbers of bytes", "why_tests_cant": "Every wrong ModR/M, SIB or immediate form shows only for particular registers (esp, ebp), displacements, immediate ranges or sizes; the combinations are too many to run, and a wrong byte may still execute.", "anchors": ["ir/be/ia32/ia32_encode.c:61-261", "ir/be/ia32/ia32_encode.c:263-660", "ir/be/ia32/ia32_encode.c:671-1068", "ir/be/ia32/ia32_encode.c:1070-1269", "ir/be/ia32/ia32_encode.c:1387-1422", "ir/be/ia32/ia32_spec.pl:489-880"]}
{"id": "C109", "title": "Layout and relocation of machine code", "statement": "The fragments of machine code that a function is collected in get addresses in their order, without overlap, each at the first multiple of its alignment if at most max_skip bytes are skipped, else directly behind its predecessor. When the function is written to memory, every fragment stands at its address and every reference is resolved: the displacement of a jump leads to the start of the fragment, that of a call to the function, an absolute reference is the address of the entity. When it is written as assembler text, the assembler puts every byte at the address that was computed. This holds for every number and size of fragments.", "quantifier": "all sequences of fragments, alignments, items, addresses of entities and of the buffer, contents of uninitialised memory", "why_tests_cant": "A wrong displacement or padding needs particular sizes and alignments of all preceding fragments; a function with more than 65536 fragments or a fragment of more than 64 KiB is no unit test, and uninitialised bytes may be right by chance.", "anchors": ["ir/be/bejit.c:25-61", "ir/be/bejit.c:106-163", "ir/be/bejit.c:170-272", "ir/be/bejit.c:274-374", "ir/be/ia32/ia32_encode.c:1332-1357", "ir/be/ia32/ia32_encode.c:1424-1457", "ir/be/ia32/ia32_emitter.c:1419-1443"]}
{"id": "C110", "title": "Condition codes read the flags of the comparison they were made for", "statement": "On IA-32 a jump, set or conditional move is taken exactly if the relation of the comparison holds: for integers of every width with and without a sign, for floating point numbers including unordered ones, whichever operands were exchanged on the way, whether the flags come from a cmp, a test, a bit test, a subtraction, a subtraction in the other direction, the instruction that computed the tested value, or from what replaces a subtraction after register allocation.", "quantifier": "all relations, modes, widths, operand values, exchanges of operands, users of the flags", "why_tests_cant": "A wrong entry in one of the tables shows only for particular operands (unordered, least negative number, carry without zero) in combination with an exchange of operands or a reload that the register allocator happens to make.", "anchors": ["ir/be/ia32/x86_node.h:21-138", "ir/be/ia32/ia32_transform.c:2017-2171", "ir/be/ia32/ia32_transform.c:2972-3048", "ir/be/ia32/ia32_emitter.c:554-583", "ir/be/ia32/ia32_bearch.c:527-561", "ir/be/ia32/ia32_optimize.c:79-137", "ir/be/ia32/ia32_optimize.c:325-452", "ir/be/ia32/ia32_finish.c:24-155"]}
{"id": "C111", "title": "Narrow integers keep their value in wide registers", "statement": "On IA-32 a number of 8 or 16 bits is kept in the low bits of a 32 bit register. Whatever the upper bits of the operands hold, the code selected for an integer expression leaves the value of the expression in the low bits; and where an extension to 32 bits is left out because the upper bits are known to be clean, they are the sign or the zeros of the value.", "quantifier": "all integer expressions over 8, 16 and 32 bits, all contents of memory and of the upper bits, all sharing of nodes", "why_tests_cant": "The upper bits are garbage only for particular instruction sequences before the extension; a test sees the right value unless the garbage happens to differ from the extension.", "anchors": ["ir/be/betranshlp.c:348-479", "ir/be/betranshlp.c:844-885", "ir/be/ia32/ia32_transform.c:1211-1250", "ir/be/ia32/ia32_transform.c:1558-1653", "ir/be/ia32/ia32_transform.c:1807-1968", "ir/be/ia32/ia32_transform.c:2891-2903", "ir/be/ia32/ia32_transform.c:3764-3872"]}
{"id": "C112", "title": "Instruction patterns compute what they replace", "statement": "Where the IA-32 backend picks a short sequence in place of the plain translation, the sequence leaves the value of the nodes: a choice between two constants from a setcc, rotations and double shifts found in shifts and a disjunction or sum, the difference or zero and the saturating increment from the borrow, the negation of a 64 bit number in every assignment of registers, ffs, clz, parity and byte swap, minimum and maximum of floating point numbers. The shorter instructions of the peephole optimizations leave the registers, and test the flags, as the long ones do.", "quantifier": "all constants, condition codes, flags, register contents, shift amounts and registers", "why_tests_cant": "Each pattern is wrong for some constant, amount 0, one assignment of registers, or one garbage bit only; no test runs over the constants and register assignments.", "anchors": ["ir/be/ia32/ia32_transform.c:3082-3126", "ir/be/ia32/ia32_transform.c:3187-3340", "ir/be/ia32/ia32_transform.c:3386-3408", "ir/be/ia32/ia32_transform.c:3456-3563", "ir/be/ia32/ia32_transform.c:1347-1398", "ir/be/ia32/ia32_transform.c:4919-5052", "ir/be/ia32/ia32_transform.c:5106-5124", "ir/be/betranshlp.c:483-539", "ir/be/ia32/ia32_emitter.c:979-1038", "ir/be/ia32/ia32_encode.c:707-758", "ir/be/ia32/ia32_finish.c:162-182", "ir/be/ia32/ia32_optimize.c:204-320", "ir/be/ia32/ia32_optimize.c:456-502", "ir/be/ia32/ia32_optimize.c:917-1019", "ir/be/ia32/ia32_optimize.c:1064-1079"]}
{"id": "C113", "title": "Pushes and pops for stores and loads around moves of the stack pointer", "statement": "The peephole optimization of the IA-32 backend for moves of the stack pointer keeps what the code does: with stores after a growth of the stack turned into pushes, loads before a shrinking turned into pops, two moves combined and small moves replaced by pushes and pops, the registers, the stack pointer and the memory that was written are the same, in whatever order the stores and loads were scheduled and whichever of them are left in their place.", "quantifier": "all schedules of stores and loads, offsets, registers and machine states", "why_tests_cant": "Which stores are taken depends on gaps between slots, on stores that are skipped and on copies between the loads; a value in a wrong slot is seen by the called function or after the return only.", "anchors": ["ir/be/ia32/ia32_optimize.c:534-635", "ir/be/ia32/ia32_optimize.c:642-779", "ir/be/ia32/ia32_optimize.c:782-869", "ir/be/bepeephole.c:389-406"]}
{"id": "C114", "title": "Tests see the flags of their producer", "statement": "be_sched_fix_flags makes code for a machine with a single flags register: every node that tests flags finds there the flags its producer computed, although other nodes write flags in between, and everything else happens in the same order on the same memory. The producer is moved behind the destroyer, or the tests use other flags that are at hand, or the producer is computed again, and every operand is still computed before it is used.", "quantifier": "all blocks and schedules, any number of producers, tests and destroyers, producers in other blocks, any semantics of flags and memory", "why_tests_cant": "A wrong flag makes a branch go the other way only for some data, and needs a schedule in which a destroyer, a store and several tests stand in a certain order; unit tests do not fix schedules.", "anchors": ["ir/be/beflags.c:46-95", "ir/be/beflags.c:137-256", "ir/be/besched.c:167-175", "ir/be/ia32/ia32_bearch.c:497-561", "ir/be/amd64/amd64_bearch.c:675-676", "ir/be/amd64/amd64_transform.c:2216-2239"]}
{"id": "C115", "title": "Code for the x87 register stack does what the code with registers does", "statement": "The x87 simulator turns code with eight floating point registers into code for a stack of eight places: along every path from the start block the same values are stored, tested and compared in the same order. Operands are brought to the top, copied if they are needed again and removed if not; at the end of a block the stack is permuted into the order the next block expects. No instruction meets an empty place or a full stack, the simulation never fails.", "quantifier": "all graphs without critical edges, loops included, with any nodes and registers, all values and all paths", "why_tests_cant": "An exchange too few shows only in a value computed far behind it, and the order of the stack depends on the liveness of all registers and on the order in which blocks are visited; unit tests cannot fix either.", "anchors": ["ir/be/ia32/x86_x87.c:171-355", "ir/be/ia32/x86_x87.c:373-522", "ir/be/ia32/x86_x87.c:537-643", "ir/be/ia32/x86_x87.c:673-956", "ir/be/ia32/x86_x87.c:979-1165", "ir/be/ia32/x86_x87.c:1238-1346", "ir/be/ia32/x86_x87.c:1471-1526", "ir/be/ia32/x86_x87.c:1596-1645"]}
{"id": "C116", "title": "Recursive calls before a Return can be replaced by a loop", "statement": "The elimination of tail recursion replaces calls of the function itself right before a Return by jumps to its begin, with a variable for each result that collects what is added to or multiplied with the results on the way: the function returns the same results and leaves the same memory as before, and ends for the same arguments.", "quantifier": "all functions with any number of results, of any width, with any Returns, values of Returns and other recursive calls, all arguments, memories and depths of the recursion", "why_tests_cant": "The values of the accumulator depend on the depth of the recursion and on which of several Returns is reached at every level; a test tries few of the shapes of expressions and few depths.", "anchors": ["ir/opt/tailrec.c:32-39", "ir/opt/tailrec.c:58-301", "ir/opt/tailrec.c:334-447", "ir/opt/tailrec.c:488-582", "ir/opt/tailrec.c:584-612"]}
{"id": "C117", "title": "Control dependence is computed exactly", "statement": "compute_cdep gives each block just the blocks it is control dependent on, each once: those with one way out on which the block is always reached, and another on which it can be left out. Climbing the tree of postdominators ends and never reads an absent one. get_unique_cdep and has_multiple_cdep answer accordingly, and on every way to a block that can be left out there is a block it is dependent on.", "quantifier": "all control flow graphs where nothing gets to the start block and nothing leaves the end block, endless loops that are kept alive included", "why_tests_cant": "Dependences come from postdominators of all predecessors, with an edge from start to end that exists only during the computation; a missing dependence shows in an optimisation much later, on few graphs.", "anchors": ["ir/ana/cdep.c:58-146", "ir/ana/cdep.c:159-179", "ir/ir/irgwalk.c:307-357"]}
{"id": "C118", "title": "Conversions are moved and left out without changing values", "statement": "conv_opt moves a conversion to an integer mode up to the operands of sums, products, bit operations, shifts and Phis, and drops conversions on the way. The expression keeps its mode and its value, whatever nodes are exchanged and in whatever order, and no exchange adds conversions. Where may_leave_out_middle_conv allows it, a conversion over a third mode gives what the direct one gives, for integer and floating point modes.", "quantifier": "all trees of nodes over all integer modes, all values, all histories of the Phis; all integer modes and floating point formats for the middle conversion", "why_tests_cant": "Wrong results show only for values outside of the narrow mode, on a half way point of rounding, or for one pair of modes; tests use few modes and small values.", "anchors": ["ir/opt/convopt.c:40-296", "ir/ir/irmode.c:329-358", "ir/opt/iropt.c:6314-6394"]}
{"id": "C119", "title": "Reassociation: sets of operands have the value of the tree", "statement": "do_Setsort collects trees of Add, Sub and products with constants, of And, of Or, and of Eor in sets of operands with coefficients, merges sets, and builds the changed ones anew. What is built computes the value of the root of the tree, for all values of the operands.", "quantifier": "all acyclic graphs, all values in all widths (sums) and each bit (And, Or, Eor), all merges in any order, all orders of the operands and coefficients", "why_tests_cant": "Whether a coefficient is right depends on how often nodes inside a tree are shared, and the set is only built anew if something else in it changed; tests use small trees without sharing.", "anchors": ["ir/opt/reassoc.c:1004-1485", "ir/opt/reassoc.c:1490-1640", "ir/opt/reassoc.c:1669-1895", "ir/opt/reassoc.c:1901-1950"]}
{"id": "C120", "title": "Reassociation: operands known equal, and chains of bit operations", "statement": "Below an And or Or with an operand a ^ b or ~(a ^ b), walk_equality replaces one of a and b by the other or its complement; the And or Or keeps its value, one of the two is left, and operands are available where they are used. walk_chains swaps operands of chains of the same bit operation; value and availability stay.", "quantifier": "all trees of bit operations, all values of the atoms (each bit), all placements of the nodes in blocks, all orders of steps at all nodes", "why_tests_cant": "Which of the two is kept depends on the order in which they are met, and a wrong placement shows only if the operands are defined in different blocks; tests rarely combine this with Eor.", "anchors": ["ir/opt/reassoc.c:575-578", "ir/opt/reassoc.c:851-979", "ir/opt/reassoc.c:1954-2064"]}
{"id": "C121", "title": "Lowering of block copies, and sizes of stack allocations", "statement": "A small CopyB becomes Loads and Stores that copy exactly the bytes of the type, touch nothing else, and are aligned where the target needs it; each CopyB is lowered as small, lowered as large or kept by its size. The size of an Alloc is rounded up to the alignment of the stack.", "quantifier": "all sizes, alignments, addresses and contents of memory; all widths of sizes, all alignments of the stack", "why_tests_cant": "The accesses depend on size and alignment together (remainders with smaller modes), so tests see few combinations; sizes at the end of the range are not allocated in tests.", "anchors": ["ir/lower/lower_copyb.c:36-46", "ir/lower/lower_copyb.c:51-94", "ir/lower/lower_copyb.c:142-175", "ir/lower/lower_alloc.c:29-45"]}
{"id": "C122", "title": "Lowering of boolean values to integers", "statement": "Every boolean node that a root needs gets an integer node that is 1 where the boolean is true and 0 where it is false, also if Phis make the graph cyclic and blocks are split meanwhile; old nodes stay as they are, all new Phis are complete, and every new node is placed above its uses.", "quantifier": "all graphs of boolean nodes (And, Or, Eor, Not, Mux, Cmp, Const, Phi) with any cycles, all roots in any order, all values, all ways into the blocks, all widths", "why_tests_cant": "Which results are reused, and in which block new nodes go, depends on the order of the splits; cycles of boolean Phis through comparisons in the same block hardly occur in tests.", "anchors": ["ir/lower/lower_mode_b.c:38-202", "ir/lower/lower_mode_b.c:240-267", "ir/ir/irgmod.c:191-222", "ir/ir/irgmod.c:276-303"]}
{"id": "C123", "title": "Calls of library functions that are evaluated at compile time", "statement": "A value that replaces a call of strlen, strcmp, memcmp or abs is one the C standard allows, calls of memcpy and memmove that are dropped would leave memory as it is, and the argument of cos or cosh is only replaced by one with the same result.", "quantifier": "all initializers of any length with elements of signed and unsigned modes, zero elements and elements not evaluated yet; all contents of memory, pointers and lengths; all widths of integers; all even functions", "why_tests_cant": "Whether char is signed, the modes of two arrays, and nodes evaluated later (offsets, sizes) decide about the results; tests use plain ASCII strings.", "anchors": ["ir/lower/lower_intrinsics.c:160-188", "ir/lower/lower_intrinsics.c:367-392", "ir/lower/lower_intrinsics.c:498-583", "ir/lower/lower_intrinsics.c:619-816", "ir/lower/lower_intrinsics.c:861-937"]}
{"id": "C124", "title": "The Hungarian method finds a best assignment", "statement": "When hungarian_solve reports success, the matching gives every row a column of its own, no other assignment costs less (or, after preparation for utility, is worth more), final_cost is what it costs, and the threshold and missing edges remove exactly the pairs they should.", "quantifier": "all square matrices of any size with any costs, all orders of edges added and removed, all thresholds", "why_tests_cant": "There are n! assignments to compare with, and the order of the alternating trees depends on the matrix; tests look at a few matrices.", "anchors": ["ir/adt/hungarian.c:78-152", "ir/adt/hungarian.c:162-433"]}
{"id": "C125", "title": "Garbage collection removes exactly the entities nobody uses", "statement": "garbage_collect_entities removes an entity from its segment, and frees the graph of a method, exactly if no externally visible entity mentions it through initializers, graphs, aliases and nodes, in any number of steps. What a remaining entity mentions remains, a second run removes nothing, and the walk ends on every finite program, cycles included.", "quantifier": "all programs: any number of segments, entities, graphs and nodes, any initializers, aliases and references, cycles included", "why_tests_cant": "A freed entity that is still mentioned is a dangling pointer that shows up much later; whether one is mentioned depends on paths of any length through initializers, graphs and aliases.", "anchors": ["ir/opt/garbage_collect.c:25-156", "ir/ir/irgwalk.c:32-50"]}
{"id": "C126", "title": "Merging and splitting Returns keeps what a function returns", "statement": "normalize_n_returns moves Returns into the predecessors of their blocks such that on every path the function returns the values it returned before, from a place that leads to the old Return in any case, and no path returns that did not; none of the resulting Returns can be moved further, and the list runs empty if no cycle consists of Jmps only. normalize_one_return gives each Phi of the common Return, on the edge of an old Return, exactly the operand of that Return.", "quantifier": "all control flow graphs, all paths, all numbers of Returns and values, all computations in the blocks", "why_tests_cant": "Returns move over any number of blocks, with Phis replaced step by step; whether values and paths agree depends on all shapes of the graph and the order of the work list.", "anchors": ["ir/opt/return.c:40-133", "ir/opt/return.c:151-328"]}
{"id": "C127", "title": "Builtins lowered to calls return what the builtin returns", "statement": "The call of the compiler library that replaces a builtin for counting bits (ffs, clz, ctz, popcount, parity, bswap) returns what the builtin returns for the original argument, also if the argument is widened to the size of a pointer because the library has no function for its size; a call is generated exactly for the sizes for which a function exists.", "quantifier": "all arguments, all sizes of arguments and pointers, signed and unsigned modes", "why_tests_cant": "There are 2^32 arguments per builtin and mode; tests try small positive numbers, for which the sign does not matter.", "anchors": ["ir/lower/lower_builtins.c:56-131"]}
{"id": "C128", "title": "The solver for linear equations returns a solution", "statement": "If firm_gaussjordansolve returns 0, the vector holds a solution of the equations in the order of the unknowns of the caller, and nothing was divided by 0; if the matrix is singular, it returns -1.", "quantifier": "all numbers of equations, all matrices and right hand sides over the rational numbers", "why_tests_cant": "Elimination exchanges rows and columns in an order that depends on the numbers; tests solve a few small systems with integers.", "anchors": ["ir/adt/gaussjordan.c:36-128"]}
{"id": "C129", "title": "Linked lists hold the elements in the order of the operations", "statement": "The operations of list.h keep every list a ring in which each node knows both neighbours: list_add and list_add_tail insert behind or before a node, list_del and list_del_init take one out, list_move and list_move_tail move it within a list or to another one, list_splice moves all elements, list_empty tells whether there are none, and the loops visit exactly the elements forwards or backwards. Other nodes are not written.", "quantifier": "all memories, all lists of any length, all positions, all pairs of disjoint lists", "why_tests_cant": "The order of the assignments matters only if neighbours coincide (empty lists, lists of one element, first and last positions); tests rarely cover all coincidences.", "anchors": ["include/libfirm/adt/list.h:39-41", "include/libfirm/adt/list.h:58-211", "include/libfirm/adt/list.h:227-236"]}
{"id": "C130", "title": "The sparse matrix keeps its entries, and a step of Gauss-Seidel stops at solutions only", "statement": "gs_matrix_get returns what gs_matrix_set last stored at that place and 0 elsewhere, for all orders of columns; gs_matrix_gauss_seidel returns 0 if and only if the vector solves all equations with right hand side 0, and then it does not change the vector; gs_matrix_get_n_entries counts the entries that are not 0.", "quantifier": "all sizes, all orders and values of entries, all vectors over the rational numbers", "why_tests_cant": "The binary search with its special bounds has cases for each length and position; solutions are not hit by tests with rounding.", "anchors": ["ir/adt/gaussseidel.c:52-57", "ir/adt/gaussseidel.c:70-188"]}
