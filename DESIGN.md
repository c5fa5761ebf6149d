# Formal model of metalibm in Lean 4

## Layout

* `properties.jsonl` - the properties, in English.
* `lean/Verif/<Area>/Model.lean` - shallow, total, computable model of the functions of one area.
  Every definition cites the file and lines of `/repo` it models and says what was simplified.
* `lean/Verif/<Area>/Spec.lean` - small independent specification (mathematical meaning), no use of model helpers.
* `lean/Verif/<Area>/Lemmas.lean` - helper lemmas (when they are long enough to deserve a file).
* `lean/Verif/<Area>/Theorems.lean` - the property theorems, named `Cxx_...`, each with a concrete non-vacuity `example`.
* `MANIFEST.json` - property -> theorem names and status.
* `seeded/LOG.jsonl` - mutation experiments on the model.

## Trusted base

* Lean 4.33.0's kernel. No `native_decide`, `bv_decide`, `sorry`, `admit`, no own axioms.
  Theorems depend only on (a subset of) `propext`, `Classical.choice`, `Quot.sound`.
* Mathlib's definitions used in statements (integers, rationals, lists, finite sets...).
* The hand translation from python to Lean. The python code was never run. The translation is per function and the
  simplifications are written in the comments of the definitions.
* External tools used by metalibm (Sollya, gappa, gcc, GHDL) are not modelled. Sollya numbers are modelled as exact
  rationals or integers.

## Plan per property

| id | model | proof |
|----|-------|-------|
| C01 | format parameters (e, f), encode/decode on integers scaled by 2^emin | arithmetic on the three fields, case split normal/subnormal |
| C02 | reported bounds as rationals | inequality chains; witness that `get_max_subnormal_value` is not subnormal |
| C03 | encode/decode over scaled integers | modular arithmetic; witness for negatives, `_partial` for non-negatives |
| C04 | min/max/saturate/truncate | order reasoning |
| C05 | search over the container list | finite list argument for all sizes |
| C06 | comparison dispatch tables | case analysis, witnesses for the swapped infinities |
| C07 | arithmetic dispatch with explicit crash value | case analysis, witnesses for crashes |
| C08 | interval operations on an ordered field | order reasoning |
| C09 | sort and merge | induction over the list with an accumulator invariant |
| C10 | expression trees, range evaluator with `Option` | structural induction; witness for modulo |
| C11 | simplification decisions | order reasoning; witnesses |
| C12 | boolean expressions with sharing-free trees | structural induction; witnesses |
| C13 | queue algorithms | induction on queue length |
| C14 | memoised generator threaded through a map | strong induction with a map invariant; witness for the default map |
| C15 | scheme generator on sorted coefficient lists | induction on the list |
| C16 | recursive splitting | well-founded induction; witness for list-built polynomials |
| C17 | tables as functions/lists | indexing lemmas |
| C18 | table state with cached interval | invariant over operation lists; stale-cache witness |
| C19 | index computation over rationals | floor/round inequalities |
| C20 | symbol tables as maps, requests as operations | invariant over operation lists |
| C21 | fuelled allocation loop | non-termination proved for all fuels on a witness |
| C22 | stack of defaults | induction over operation lists |
| C23 | scheduler state | induction, witness for chaining |
| C24 | worklist machine | invariant + measure |
| C25 | structured language to CFG | simulation |
| C26 | CFG reachability | graph search correctness |
| C27 | fixpoint iteration | greatest fixpoint = all-paths |
| C28 | block layout semantics | simulation |
| C29 | straight-line register code | semantic equivalence under explicit conditions; witnesses |
| C30, C31, C40, C41 | bit patterns as naturals, fields by div/mod | arithmetic on fields |
| C32 | select on linear orders | case split |
| C33 | bit operations on naturals | `Nat.testBit` extensionality |
| C34 | 32-bit sequence on naturals | interval case analysis |
| C35 | loop over bits | induction on width |
| C36 | heap = weight -> list of bits | sum invariants, termination measure |
| C37 | partial-product generators | sums over bits |
| C38 | recursive adder | well-founded induction |
| C39 | divider loop | loop invariant |
| C42 | prefix characterisation | induction from the most significant bit |
| C43 | netlists as streams | induction over the graph |
| C44, C45 | formats as (int, frac, signed), value sets as scaled integers | inequalities; witnesses |
| C46 | abstract rounding systems | exactness lemmas |
| C47 | real inequalities | algebra; witnesses |
| C48, C49 | limbs with a monotone rounding function | order reasoning |
| C50 | scheme language | simulation; witnesses |
| C51 | loops over exact rationals | loop invariants |
| C52 | floor/fraction | case analysis |
| C53 | expression trees | structural induction |
| C54 | statement trees | induction; witness |
| C55 | generators as functions of an arbitrary draw | inequalities; witnesses |
| C56 | parity split | integer arithmetic |
| C57, C59 | graphs as topologically numbered nodes | induction with memo invariant |
| C58 | prefix sums | list induction |
| C60 | ulp on scaled integers | inequalities; witness |
| C61 | table compression steps | list lemmas; witness |
| C62, C63 | dominators, phi insertion on graphs | path arguments |
| C64, C65, C67 | multi-limb blocks over an abstract rounding to nearest | real error algebra; witnesses in binary64 |
| C66 | remainder/quotient loops on exact rationals | loop invariants; witness for the halved divisor |
| C68 | C integers as bit vectors modulo 2^n, shifts and casts | arithmetic modulo 2^n; witnesses |
| C69 | generator state split in own and process-wide draws | two-run induction; witness |
| C70 | test decisions on data of a format, exact values are reals, Sollya's rounding as IEEE-754 rounding | characterisation of rounding to nearest, down and up |
| C71 | test table and loop as fuelled functions on lists | induction on the list with the lane alignment; negation for `break_error` |
| C72 | error arithmetic on data, loop state as a structure | invariant over the list of tests; negations for infinite results and vector functions |
| C73 | the data path on natural numbers below powers of two, any precision and exponent size | key lemma on the rounding stage, then alignment case by case; one negation per wrong class of operands |
| C74 | signals of the data path as natural numbers, compound addition, leading-zero count (C35) and rounding stage shared with C73 | the aligned sum and the exact one lie in the same half unit of the last place; the rounding lemma of C73; negations with witnesses |
| C75 | descriptions as trees with node identities; the generator with its memoization levels, code levels and symbol tables; C statements with block scopes | simulation between the value of each memoized node and the C variable holding it, induction on descriptions and on loop fuel; negations with witnesses |
| C76 | the generator of C75 | counting invariant: operators emitted so far equal memoized operations; induction on the description |
| C77 | all of generate_scalar_scheme with IEEE arithmetic on data of any format (Elem/Fp, Elem/ExpModel), the polynomial part a parameter | exactness of k*log2_hi and x-k*log2_hi on the grid of the format, one rounding in the three reconstruction branches, real bounds on exp and log 2 |
| C78 | the whole of the scheme with IEEE arithmetic (Elem/DivModel): exponent extraction, scaling, Newton-Raphson iterations, correction, unscaling and special operands; seed and subnormal path are parameters | standard model of the roundings (Elem/Rel), quadratic convergence by induction on the iterations, the rounding of a close approximation is faithful (Elem/Near); wrong cases by witnesses |
| C79 | the whole of the two schemes with IEEE arithmetic (Elem/SqrtModel): seed parameter, Newton-Raphson iterations, the two corrections, special operands | quadratic convergence by induction (Elem/SqrtNR); the correction in integers, with half the last place as unit: exact residuals, the even integers next to the root, exclusion of the middle points by divisibility (Elem/SqrtInt, SqrtFloat, SqrtHf, Sqrt); wrong cases by fixed points of the iteration (Elem/SqrtWrong) |
| C80 | the whole scheme with IEEE arithmetic (Rem/Model): special operands, exponent-scaled operands for subnormal numbers, the three loops, the two half tests, sign and modulo of the quotient with wrap-around integers | invariant Q*|y| + m = |x| with the significand grid, through the three loops (Rem/Loops, Scale, Core); comparison to half the divisor and tie (Rem/Half); wrong cases on a parametric witness |
| C81 | the whole scheme with IEEE arithmetic, the unbounded loop with a step counter (Rem/FmodModel) | one step in rational numbers: the remainder is a multiple of the last place of the divisor and fits the significand, quotients below one are not rounded to one, the tie at 2^p+1 is excluded by divisibility (Rem/FmodLemmas); the loop by induction on the logarithm of the quotient (Rem/Fmod); wrong cases on parametric witnesses (Rem/FmodThms) |
| C82 | the tables, the indices and the loop in IEEE arithmetic, with 64-bit integers that may overflow | exactness of the products, an invariant of the accumulators, the weight of the chunks that are skipped; for the constant of sincos, bounds of pi |
| C83 | Trig/SinModel (vx_pi, k, Cody and Waite, Fast2Sum, modk, the selection of the reduction) | interval bounds of each rounding (absolute error per operation), bounds of pi, reuse of C82 for the large arguments |
| C84 | Fuse/Spec (expressions with the flags of the code, exact value), Fuse/Model (fuse_multiply_add case by case, C expressions of the fused operations, legalize_fma_to_std, support table) | induction following the branches of the pass; case analysis over NaN, infinities and signed zeros for one operation |
| C85 | X86/Model: the tables as a choice of intrinsics by predicate, format and target, the expansions of the missing predicates, the two lowerings of a selection with the recursion of the code generator as fuel; intrinsics by their documented effect on a lane | cases over tables, IEEE order by trichotomy of extended reals, induction on the condition |
| C86 | X86/Data: packing of constants into 64-bit words as a loop with fuel, registers as functions from word index to word, intrinsics by their documented effect, mantissa extraction on encodings | digits of the packed integer, bit extensionality, decoding of packed fields, induction over the rows |
| C87 | Typing/Model: formats, merges, and the two passes as folds over the nodes in completion order with the state of formats | monotonicity of the state, invariants over the fold, embedding of IEEE formats |
| C88 | the reduction, the clamped table index, the scalings of the normal and of the subnormal path and the selection, over IEEE arithmetic rounded to nearest, with the polynomial and the undefined conversions as parameters | exactness of each step of the reduction, then a real inequality on the accumulated errors |
| C89 | the chain of special cases, the parity test, the exponent and mantissa extraction and the default path over IEEE arithmetic, exp2 of C88 as a sub-function | case analysis on the data, parity of the truncated remainder, exactness of the products by one |
| C90 | operation nodes with identities, basic blocks, the generator with its memoization map, machine code run by the semantics of C28 | simulation: invariant on the registers of the memoized nodes still to be used, induction on the length of the run |
| C91 | circuits as assignments of expression graphs, the memoization map, the reversed breadth-first order | invariants on the map, IsGreatest over an inductive set of paths, chains of any length as witness |
| C92 | the selections, the reciprocal, the combination of constant and approximation over the IEEE operations of Elem.Fp; the approximation is a parameter | error analysis of every rounding, arctan is 1-Lipschitz, arctan(1/t) = pi/2 - arctan(t) |
| C93 | sign from the exclusive or of the encodings, magnitude comparison, quotient, offset, over the IEEE operations of Elem.Fp | the result is within eps + 7u of sign times (pi minus) the angle of the first quadrant; Complex.arg is the specification |
| C94 | the bound as a real expression with Python int(); the selections over the IEEE operations of Elem.Fp; polynomials are parameters | 1 - tanh x < 2 exp(-2x) and the half-unit criterion for rounding to 1; int(log2 s) > log2 s - 1 |
| C95 | the two loops with an iteration count, None for a loop that has not finished | invariant of the bounds of the dichotomy; exact middle and successor on the grid of a binade for termination |
| C96 | tables as rounded cube roots, truncating exponent division and modulo, IEEE operations of Elem.Fp, 8 iterations | error recurrence e' <= 2.04 e^2 + 2.1 u on the relative error, seed error 1/128; sign and overflow invariants of the iteration for the disagreements |
| C97 | nested association lists with distinct keys for the tables, conditions and interfaces as arbitrary functions of the node, the loops with their early returns | the loops are characterised by find? on the flattened list of entries; the merge of the maps by the set of paths it has, level by level, and distinctness of keys is kept by it |
| C98 | the breadth-first traversal with a bound on the number of calls, over an arbitrary function giving the bases | invariant: seen classes are reachable and their bases are seen or pending; the number of unseen classes decreases; chain invariant for single inheritance |
| C99 | the expansion over an abstract rounding to nearest even | adding the rounding factor puts the sum in a binade whose grid is the subnormal one; the low part is kept by the error term of the addition; witnesses in binary64 |
| C100 | the function on 64-bit encodings as naturals, undefined shifts as none | the tests of the sticky bits and of the parity are divisibility facts on the significand; an integer rounding lemma; the carry into the exponent gives the next binade |
| C101 | statements and expressions with object identities, operations as arbitrary partial functions, the traversal with its maps, the generated code as execution with declared variables | hoisted nodes depend on inputs only (invariant of the traversal), so declared variables keep the value of their node; simulation by induction on the program |
| C102 | the tables as functions of their index over the reals, the indices as quotients and remainders | mean value theorem twice: the slope is the derivative at a point near the middle of the segment, the remainder is bounded by the variation of the derivative; the nested maximum bounds each of its terms |
| C103 | Arr/Model: the loops as functions on memories with 32-bit wrap-around, the vector registers with their granted lengths and undefined tails, on top of the path extraction of Vec | induction on the remaining length with the invariant that a prefix has been processed; the RISC-V rule of vsetvl is a hypothesis of the specification |
| C104 | Softmax/Model: the two loops and the reciprocal in IEEE arithmetic, the exponential as a parameter (then the model of C77) | loop invariants, then the standard model of rounding along the accumulation |
| C105 | Kulisch/Model: every operator on words with its width, including the wrap-around of the exponent difference | the shift is shown to stay in range for every format, then the alignment gives the product in units of the last place, then induction on the sequence modulo 2^width |
| C106 | Piecewise/Model: the tables, the loader and the evaluation loop over the reals with an arbitrary rounding | induction on the degree for the value and the error, the exactness of the reduction from the significands, composition with C61 for the index |
| C107 | Axf/Model: the dictionaries of each class, the effect of JSON, the importer | lookups in a sorted dictionary without duplicates, then field by field; induction on the pieces |
| C108 | Bfloat/Model: the shifts on words, the constant and the rounding | the fields of a word and of its high part, for any number of dropped bits; C01 for the constants |
| C109 | Log/Model: table, seed, argument reduction and double-word recombination over an abstract rounding to nearest | exact reduction, FMA and Add error bounds, monotone log bounds; series of log for the witnesses |
| C110 | Rootn/Model: the branches in the order of the code, split of e/n into integer and fraction, exp2 of both parts | error propagation through division, FMA remainder and the two exponentials; case analysis for the special values |
| C111 | the five generated schemes over the operations of Elem/Fp with constants, tables, polynomials and conversions as parameters | the symmetries because the argument only enters through its absolute value and a factor of absolute value one; the special values by following the operations; the negations by computing the witnesses |
| C112 | the translation to the allocator's description, the constraint the allocator guarantees, the renaming | a simulation: the physical registers hold the values of the live registers; liveness in the description contains liveness of the program |
| C113 | the table as a function from operations and formats to lines of LLVM-IR with their mnemonics; a semantics of these lines, lane by lane | case analysis on the table; each line computes its operation on every lane |
| C114 | Blocks with parallel phi nodes; the generator with its memoization from nodes to registers and result_var; the text run with registers that hold their initial content until they are defined | Simulation block by block: the registers of the available nodes hold their values (invariant kept by phi nodes, assignments and ends of blocks), distinct nodes have distinct registers by single assignment; the runs are equal for every number of steps |
| C115 | The two recursive functions with their memoization maps, with fuel | Invariants of the traversal (what is in the map is closed under inputs at the end of a visit), termination by the number of nodes not visited or by the rank |
| C116 | Bit vectors as a length and a natural number, the rewritten operations branch by branch, VHDL that is not legal as none | Each vector represents an integer modulo a power of two; the extensions and selections keep or divide that integer; the range of the result makes the representation exact |
| C117 | Verif/Gappa: the generation of the script as a function from graphs with identities and tags to hypotheses, lines and a goal, with memoization and free names; a script means: for all values of the names that satisfy the hypotheses the goal is in the interval | by induction on the graph, with the invariant that memoized operands keep the meaning of their node and that new lines do not change old names; wrong parts by witnesses for every rounding. |
| C118 | Verif/Mll: constants, formats and the Horner scheme as functions on rational numbers that give an implementation with the error required of each operation; the choice of a block over abstract descriptors. | Induction on the coefficients for the error of the scheme, with the sign hypothesis; the loops on words by case analysis; witnesses for all targets for the wrong claims. |
| C119 | Verif/FastTrig: the generated function on integers with the fixed-point operations of C68, the table and the coefficients as parameters. | The integer schemes are computed exactly (floor divisions), then bounded in real numbers with the addition formulas; wrong cases by the same computation modulo 2^32. |
| C120 | Verif/Mask: the lanes as bit vectors, the operators and library functions lane by lane, the reduction tree of the expansion. | Induction on the expression: a lane is 0 or all ones (or 0/1 for assembled scalars); induction on the reduction loop. |
| C121 | Verif/VecTable: the whole table in source order with first match, the loops of the macros with their counts, the scalar functions as parameters. | A general lemma (an implementation with the right function, types and count is right for all operands) and a check of all entries of the table by the kernel. |
| C122 | the four Newton iterations on the fixed-point operations of the VHDL model (C116), the table as a parameter, the rounding and the exponent logic on words | exact rational error analysis of each iteration (all intermediate formats hold their values), then an integer argument on the position of the quotient with respect to the middle of two numbers |
| C123 | Verif/Mprec: every C operation rounds the exact one; a second version of split and product tracks overflow | a format with gradual underflow agrees with an unbounded one on multiples of its smallest number, so the integer cores of Verif/Blocks carry over without normality hypotheses; a sum no larger than its operands is exact, which bounds the error of the pair addition under cancellation; witnesses for the failures |
| C124 | The table entry by entry as a list of (operation, result format, operand formats, implementation); the lookup; the modifiers (operand swap, splat, casts, through-integer rounding) that generate other operations; C expressions with the prototypes and lane semantics of the intrinsics | soundness of each entry for arbitrary operand expressions, then induction on the expression; arithmetic on rationals for the roundings; interval argument on the 128 entries for the reciprocal table |
| C125 | The function on bit vectors: signed minimum and maximum, addition of the bias, conversion to the width of the format, shift; the same with the expanded insertion. | Integer value of the bounded exponent, fields of the pattern it is shifted into (lemmas of C31), case distinction on the doubly biased exponent. |
| C126 | Expressions and statements with formats, the pass as a function that may stop with an error, the target and the meaning of operations as parameters. | Mutual structural induction with an invariant for both expected formats (the own one and the promoted one): no error, format, value, operations. |
| C127 | Graphs with numbered nodes and operands of smaller numbers; both recursions by well-founded recursion with their maps. | Invariant of the memoization map (its values are exact, it is closed under operands); invariant of the report map (placeholders only on the nodes being visited). |
| C128 | Formats, classes and graphs; the pass as a function that may raise. | Induction over uniform graphs; mutual induction for idempotence; computation for the refutations. |
| C129 | Heap of numbered nodes changed in place, memoization map and statement list as in instanciate_graph; meaning of graphs and statements as relations in Spec | Induction on the node with an invariant saying that the statements run and that every node done has its value; finite sets for the variables; arctan for atan2 |
| C130 | Graph with numbered nodes, tags, per-class counters and memoization map as in the pass, one run per function with shared counters | Induction on the recursion with an invariant on the numbers given; injectivity of the tag text by its last underscore |
| C131 | Exact rational nodes with directed conversions, tables as functions from index to entry, fixed-point results as the bits their format keeps | One-step lemma on floor and ceiling applied twice, grids closed under products, a 64-entry check for the default parameters with the significand universal |
| C132 | Patterns as natural numbers with shifts and masks, signed integers, the machine subtraction as any function that is exact on representable differences, real table entries | Normal form of a subnormal by its binary logarithm, case distinction on the three exponents the reciprocal can have, parity of the bias for the index, then algebra on logarithms |
| C133 | Graph with numbered nodes, formats with a meaning for each bit pattern, table formats as shared mutable objects, memoization map, the returned value which becomes the scheme | Case analysis on formats; induction on the recursion with an invariant relating formats to the visited nodes; idempotence composes the functions of a group |
| C134 | Memory of numbered nodes with allocation, copy with its memoization map, parameters, tables entered in the map, evaluation of graphs under any interpretation | Induction on the recursion of copy with an invariant: each entry of the map evaluates in the function to the value of the original node under the substitution |
| C135 | Levels as objects with identity, filters, configuration, the formatting of the message, log and screen | Case analysis on the configuration, induction on the list of filters, on the message and on the history |
| C136 | Acyclic graphs, the stages and the map as functions, the recursion with its order of visits | Invariant of the traversal (who gave its stage to whom), composed along the list of operands; induction on the depth below the root |
| C137 | Lists of functions as objects with addresses, loops with an index over growing lists, routines as arbitrary state transformers, the file as lines, the main function as calls and checks | Induction on the loop with a prefix invariant; folds; induction on the list of wrapper groups |
| C138 | A world of entities, dynamic attributes with their default values, nodes and their stages; histories of steps | Invariants of histories against folds over the history |
| C139 | Components, dictionaries as objects with addresses, instances, set_input, the port map and the declared components. | Invariant over histories: each instance of a history with separate dictionaries is wired; next identifiers bound those given. |
| C140 | Statements with a big-step semantics which records the operations on flags; the table, the interface of a node and the lowering. | Both directions by induction on executions; the operations left by induction on statements. |
| C141 | Expression trees with boolean formats, the table of boolean types, the bottom-up legalization and the two entry points. | Structural induction; the width is characterised as the maximum of the widths depended on. |
| C142 | The work list, the set of nodes met and the set of tables, with a number of turns. | Invariant of the loop; the nodes met are distinct and bounded. |
| C143 | Schemes with conditions and returns; the returned scheme and the block which is built and dropped. | Cases on the input. |
| C144 | The map of display formats as a state, printf conversions of integers as a specification. | Induction on the history and on the number of words. |

Not expressible in a model: run-time behaviour of Sollya, gappa, C compilers and simulators (no model of those tools);
textual well-formedness of all generated C/VHDL (templates of hundreds of targets).

<!-- generated below -->

## What the code does not satisfy

Each line is a theorem of the model that contradicts the property as stated (a general negation or a witness).

* `Float.C02_max_subnormal_is_not_subnormal` - C02 is false of `get_max_subnormal_value`: in every format the value it returns is above the smallest normal number, while the largest subnormal number is `2^emin * (1 - 2^-f)`.
* `Fixed.C03_negative_not_round_trip` - The full C03 is false of the code: no negative value of a format survives encoding and decoding.
* `Special.C06_number_vs_infinity_is_reversed` - C06 is false of the code: every number compares greater than plus infinity and less than minus infinity.
* `Special.C06_gt_number_vs_special_fails` - C06 is false of the code: `>` between a number and an infinity or a signed zero raises, and it is false rather than unordered on NaN.
* `Special.C06_zero_equality_not_symmetric` - C06 is false of the code: equality of zeros is not symmetric.
* `Special.C07_div_number_by_nan_raises` - C07 is false of the code: dividing any number by a NaN raises instead of returning NaN.
* `Special.C07_div_zero_by_inf_sign` - C07 is false of the code: the numeric zero over plus infinity is `-0`.
* `Interval.C08_union_with_empty_raises` - C08 fails for the empty interval: union and intersection with it raise, on either side.
* `Range.C10_modulo_unsound` - C10 fails for Modulo: for every non-zero divisor interval reduced to a point `d > 0`, the reported range of `x mod d` is `[d, d]`, which contains no remainder at all.
* `Range.C10_raw_exponent_unsound` - C10 fails for RawExponentExtraction in every format with a non-zero bias: the reported range of the biased exponent of any non-zero constant does not contain it.
* `Range.C10_dot_product_negate_raises` - C10 fails for DotProductNegate: its range evaluation raises on all four-interval inputs, although the operation has a value and the same evaluation of DotProduct succeeds.
* `Simplify.C11_subnormal_wrong` - C11 fails for `IsSubnormal`: in every format, for every interval bounded above by the reported bound and starting below the smallest normal number, the test becomes true, also for the negative normal numbers, zero and the smallest normal number it may contain.
* `Simplify.C11_minus_infinity_wrong` - C11 fails for infinity tests: an interval starting at minus infinity whose upper bound is finite makes the test false, although the operand may be minus infinity.
* `Logic.C12_or_not_wrong` - C12 fails on disjunctions of negations: for all atoms the result of simplifying `¬p ∨ ¬q` means `p ∨ q`.
* `Logic.C12_mixed_and_raises` - C12 fails on conjunctions of one negation and any atom or disjunction: the pass raises.
* `Poly.C14_shared_map_wrong` - C14 fails when one map (in particular the default argument, a dictionary shared by all calls) serves two nodes: for every power and all nodes `v`, `w`, the request on `w` returns the power of `v`.
* `Poly.C14_pow_operator_diverges` - C14 fails for the `**` operator on every other exponent above 2: no recursion limit is enough.
* `Poly.C16_two_coefficients_raise` - C16 fails on polynomial objects built from any list of two coefficients: the upper half is empty and generation raises.
* `Poly.C16_empty_raises` - C16 fails on the polynomial without coefficients: generation raises instead of returning zero.
* `Table.C18_stale_cache` - C18 fails after a write that follows a query: for every one-dimensional table and every value outside the first interval, the second query does not contain the written entry.
* `Table.C18_special_overwrites` - C18 fails when the last entry is a special value: both bounds are that value, whatever numbers the table holds.
* `Table.C19_upper_half_wrong` - C19 fails for every input in the upper half of every sub-interval but the last: the index is the next one, whose sub-interval does not contain the input.
* `CFG.C27_entry_loop_wrong` - With an edge back to the entry the computation is wrong: block 1 is listed as a dominator of the entry 0, although the path made of the entry alone avoids it.
* `Machine.C28_duplicate_wrong` - On the block list basic-block simplification makes of this diamond (each block once per path, `C26_duplicates`), the pass removes from the shared block the jump that the first occurrence needs: the join is executed twice.
* `Machine.C29_chain_wrong` - `a := f; b := a; c := b; observe c`: both copies are removed but the definition is only renamed once, so `c` is never written.
* `Machine.C29_read_between_wrong` - The old value of the destination is still needed after the definition.
* `Machine.C29_written_between_wrong` - The destination is written between the definition and the copy.
* `Legal.C30_subnormal_wrong` - Zero is reported subnormal, in every format.
* `Legal.C30_comp_sign_wrong` - `-0` and `5` are said to have the same sign, and a NaN is said to have another sign than itself.
* `Legal.C32_nan_wrong` - With a NaN operand the second operand is returned, whatever it is: min and max are not commutative and a NaN may or may not be propagated.
* `Legal.C33_point_to_msb_wrong` - The fourth alignment is documented as the (negative or null) position counted from the MSB; the code returns the number of bits from the position up to the MSB included instead, which is never the documented value.
* `Legal.C33_concat_signed_wrong` - A negative signed right operand is sign extended over the left one.
* `Legal.C33_concat_fraction_wrong` - A right operand with a fraction that the result has not is shifted out.
* `HW.C37_frac_wrong` - `1.0 × 0.5` (FU1.0 x FU0.1) is accumulated as 1.
* `HW.Compound.C38_width_mismatch` - Operands of different widths: generation fails (the padding constant has no format, or the sizes of the exclusive or differ).
* `HW.Div.C39_narrow_divisor_wrong` - A divisor narrower than the dividend: the leading-zero counts do not refer to the same width and the quotient is wrong.
* `HW.Div.C39_narrow_result_wrong` - A result narrower than the operands: one turn may be missing even for a quotient that fits in the result (8 / 3 on a two-bit result).
* `HW.C42_neg_power_wrong` - `(-2) + (-2)` on 8 bits: six leading zeros in the magnitude on nine bits, seven anticipated; an error neither 0 nor -1, so the check of the test bench fails.
* `HW.Pipe.C43_unbalanced_delay_fails` - An unbalanced delay: the delay overwrites the stage under which the operation is recorded, and a later use of the operation fails.
* `HW.Pipe.C43_unbalanced_delay_wrong` - An unbalanced delay may also pass unnoticed: the other operands are then brought to the delayed stage instead of the operation's own, and the value is not that of the transaction.
* `HW.Pipe.C43_async_single_process_wrong` - With an asynchronous reset and a single process, registers are cleared whatever the signals: the pipeline never carries a value.
* `Fixed.C44_add_mixed_overflow` - C44 is false for additions of mixed signedness: 8-bit unsigned 255 plus 8-bit signed 127 does not fit the inferred format.
* `Fixed.C44_sub_signed_overflow` - C44 is false for signed subtractions: -128 - 127 does not fit the inferred 8-bit signed format.
* `Fixed.C44_sub_unsigned_signed_overflow` - C44 is false for unsigned minus signed: 255 - (-128) does not fit the inferred 9-bit signed format.
* `Fixed.C44_neg_overflow` - C44 is false for the least signed value: the opposite of -128 does not fit the inferred 8-bit signed format.
* `Blocks.C47_add_cancellation_wrong` - With cancellation the declared bound is not an upper bound, however large it is.
* `Blocks.C47_mul111_wrong` - The declared error of `MB_Mul111` is not an upper bound (binary64 operands).
* `Blocks.C47_mul222_wrong` - `MB_Mul222` (and `Mul122`, `Mul121`) declare the *maximum* of the input errors for a product: not an upper bound, even in exact arithmetic.
* `Blocks.C47_add222_cancellation_wrong` - With heads of opposite signs the declared local error of `Add222` is not an upper bound, on binary64 operands accepted by its input check.
* `Blocks.C48_cmp3_mixed_wrong` - **C48 is violated** when one operand is a constant and the other is not: a normalized three-limb variable that holds the very limbs of a normalized constant compares different from it, since only the variable goes through `Normalize_33`, which moves its head to the other side of the tie. The head of the example rounds the same way under ties-to-even.
* `Vec.C50_bare_unlikely_wrong` - **C50 is violated** by an unlikely condition without else branch: its condition is not added to the mask, so a lane that takes the branch is declared valid and gets the value of the other path.
* `Vec.C50_local_condition_wrong` - **C50 is violated** by a condition on a local variable: the mask reads an uninitialised copy of the variable.
* `Vec.C50_switch_wrong` - **C50 is violated** by any other statement with an effect, e.g. a switch that returns: the extraction skips it without restricting the mask.
* `Vec.C50_sub_vector_wrong` - Lanes are lost when the sub-vector size does not divide the vector size.
* `HW.Deq.C52_subnormal_wrong` - A subnormal scale: the field vanishes and rounding up returns the offset although the exact value is above it.
* `Rng.C55_zero_weight_wrong` - The draw 0 chooses a category of weight 0: the head of a multi-limb value is then a special value, and no value is produced.
* `Rng.C55_fixed_zero_wrong` - The category `ZeroValue` produces 0 on an interval that does not contain it: here `[1, 3]` in 4-bit signed integers.
* `Rng.C55_fixed_near_zero_wrong` - The category `NearZero` of an unsigned format scales twice: here it produces `2^-10` in a format with 5 fraction bits.
* `Rng.C55_int_wrong` - Three categories of the integer generator raise on every draw.
* `Rng.C55_log_endpoints_wrong` - The logarithmic distribution ignores the inside of an interval within a binade: only the two bounds are ever produced.
* `Rng.C55_log_subnormal_wrong` - In an interval of subnormal numbers the generator produces numbers that are not in the format: here `1025 * 2^-32` in binary16.
* `Rng.C55_uniform_wrong` - With a bound that is not representable the value can leave the interval: here `[1 + 2^-12, 1 + 2^-12]` in binary16 yields 1.
* `Rng.C55_mp_wrong` - two binary64 limbs on `[1, 2]`: the value `2 + 2^-52` is produced, which is above the interval
* `Rewrite.Inline.C57_early_return_wrong` - fails for a scheme with an early return: a function that returns 2 on a negative argument, whose inlined scheme has one outcome, in which the destination is 1, because the execution goes on after the assignment that replaces the first return.
* `Rewrite.C59_lower_chain_wrong` - completeness fails without the restriction: actions that preserve values and have no cycle, a graph of three nodes, and a lowered graph (with the right value) in which a node reachable from the root can still be lowered. The second use of a lowered node gets the node recorded for it, which is the result of the first action and not the result of lowering that one.
* `Rewrite.C59_execute_none_wrong` - the entry point `execute` of the concrete passes does not return the graph when its root is not transformed: the result is `None` for every graph whose root cannot be transformed.
* `Float.C60_next_of_power_is_stuck` - C60 is false on powers of two: in every format, `fp_next` of a normal power of two is that power of two.
* `Float.C60_next_of_subnormal_is_stuck` - C60 is false on subnormal numbers: `fp_next` of a subnormal number of even significand is the number itself.
* `Float.C60_previous_of_min_normal_is_stuck` - C60 is false at the smallest normal number: `fp_previous` returns it unchanged.
* `Blocks.C64_mul211_underflow_wrong` - Without room for the error term the declared exactness fails (product of two small binary64 numbers, whose error term underflows).
* `Blocks.C64_add321v2_wrong` - `MP_Add321_v2`, declared with the same zero error, is not exact on binary64 operands that satisfy its documented condition: it returns the input's low limb instead of the computed one.
* `Blocks.C65_fma2212_wrong` - `MP_FMA2212` passes its limbs to the product in the wrong positions (it multiplies `xh` by the pair `xl, y`): even with no addend the two-limb product is lost to single precision.
* `Fn.C66_half_wrong` - The rounded code is wrong for some divisors: in binary64 with round-to-nearest-even, `y * 0.5` is inexact for `y = (2^52 + 1) * 2^-1074`, the comparison with it sees a tie that does not exist, and the quotient comes out as 2 instead of 1.
* `Blocks.C67_add333_wrong` - `Add333`, leading gaps 53 and 4 bits, heads of the same sign: the declared error, whose second term ignores `b_o`, is exceeded.
* `Blocks.C67_add333_cancellation_wrong` - `Add333`, heads of opposite signs: the declared error is exceeded (the relative error is above `2^-53`).
* `Blocks.C67_add332_cancellation_wrong` - `Add332`, heads of opposite signs: the declared error is exceeded.
* `Blocks.C67_add322_factor_wrong` - `Add322`: the declared factor `2^-52` of the middle limb is exceeded by operands the block accepts.
* `Blocks.C67_add321_factor_wrong` - `Add321`: the declared factor `2^-52` of the middle limb is exceeded by operands the block accepts.
* `Blocks.C67_add322_binary32_wrong` - `Add322` on binary32 limbs: the declared error, a constant made for binary64, is exceeded.
* `Blocks.C67_add331_wrong` - `Add331`, low limb far below the middle one: the declared error is exceeded.
* `Blocks.C67_add331_factor_wrong` - `Add331`: the declared factor of the middle limb (`2^-105` here) is exceeded: the code takes the smallest of its three terms.
* `Blocks.C67_mul322_binary32_wrong` - `Mul322` on binary32 limbs: the declared error, a constant made for binary64, is exceeded.
* `Blocks.C67_mul321_wrong` - `Mul321`, overlapping limbs, which the block does not refuse: the declared error is exceeded.
* `Blocks.C67_mul332_wrong` - `Mul332`, leading gap of one bit, which the block accepts: the declared error is negative.
* `FixC.C68_conv_negative_wrong` - a negative number that loses fraction bits, in a container that does not shrink, never becomes negative: here −1.5, from 4 to 1 fraction bits, becomes +14.5
* `FixC.C68_add_wrong` - 24 − 17 on signed operands of 6 bits with an unsigned result of 4 bits: the operands are masked before the addition, and the sum is not, which yields 23.
* `FixC.C68_sub_wrong` - 3 − 0.25 with an integer result: the second operand is rounded down before the subtraction, which rounds the difference up to 3.
* `FixC.C68_mul_wrong` - When only the second operand has the C type of the intermediate product, the result does not depend on the second operand (it is the square of the first one): 1 * 3 = 1 * 200, here with formats of 8 and 24 bits.
* `FixC.C68_cmp_wrong` - Operands of two formats cannot be compared: the generator raises.
* `FixC.C68_from_fp_wrong` - 0.75 in binary32, converted to an integer format with the rounding toward minus infinity the backend accepts: 1
* `Rng.C69_seed_wrong` - The default generator, and that of a uniform interval, ignore their seed: for the same draws of the seeded generator they produce different values.
* `Check.C70_cr_negative_zero_wrong` - C70 is false when the correctly rounded result is the negative zero: it is rejected, the positive zero is accepted.
* `Check.C70_absolute_infinite_wrong` - C70 is false near the end of the range: with an absolute goal, an infinite result is accepted for a finite function value as soon as the value plus the goal exceeds the greatest number, whatever the goal.
* `Check.C70_absolute_accept_wrong` - C70 is false for absolute goals: a result further than the goal from the exact value is accepted. The function value is 1, the goal 0.6 ulp, the result 1 + 1 ulp.
* `Check.C70_absolute_reject_wrong` - C70 is false for absolute goals: a result within the goal of the exact value is rejected. The function value is 2^23 + 1.6, the goal 2^23 + 1.25, the result 0.5.
* `Check.C71_break_error_wrong` - C71 is false with the option that goes on after an error: the program reports success whatever fails.
* `Check.C72_infinite_wrong` - C72 is false of infinite results: wherever such a test stands in the list, and whatever number is expected, the value returned is the one without it.
* `Check.C72_index_wrong` - When no test has an error the program reads the inputs at index −1, out of the table.
* `Check.C72_vector_nan_wrong` - C72 is false of vector functions that return NaNs: such a test changes nothing of what is returned or printed, where the scalar program returns −2.
* `Check.C72_vector_print_wrong` - C72 is false of what the vector program prints as the relative error: for the result 2 where 1 is expected it prints 1, and returns 1/2.
* `Check.C72_degraded_wrong` - C72 is false of the degraded goals: the error is the distance to the nearer of the two bounds. That of the correctly rounded result is the whole tolerance, that of a result off by the tolerance is zero.
* `FpHw.C73_carry_wrong` - (wrong). When the sum rounds up to the next binade, the adder returns one and a half time the correctly rounded sum: the carry is put in the first bit of the significand field.
* `FpHw.C73_far_wrong` - (wrong). When `y` is larger than `x` by more than `f + 3` binades and the signs are equal, the adder returns `y` scaled down to the exponent of `x` plus `f + 3`: `1 + 2 ^ 60` is `2 ^ 26` in binary32.
* `FpHw.C73_zero_wrong` - (wrong). A zero plus `y`, whatever the signs, is `y` scaled down to the exponent `emin + f + 2`: `0 + 1` is `2 ^ -101` in binary32.
* `FpHw.C73_cancel_wrong` - (wrong). A number minus itself is not a zero but a power of two: `1 - 1` is `2 ^ -50` in binary32.
* `FpHw.C73_sub_wrong` - (wrong). When the signs differ and `x` is the largest in magnitude, the adder returns a number of the right sign and exponent but with the two's complement of the significand field: if the sum is exact and not a power of two, `3 * 2 ^ E - |x + y|` instead of `|x + y|`: `8 - 1` is `5`.
* `FpHw.C74_half_wrong` - (wrong). When the product is not negligible, that is when `|c|` is below `2 ^ (A + B + G.f + 5)` (`c` may be a zero), the operator returns **half** the correctly rounded value of `a * b + c`: `1 * 1 + 1` is `1`, `1 * 1 + 0` is `1 / 2`. (If the sum is a tie, this is shown when the signs of `a * b` and `c` differ.)
* `FpHw.C74_carry_wrong` - (wrong). Even when the product is negligible, a result rounded up to the next binade is one and a half time the right one.
* `FpHw.C74_tie_wrong` - (wrong). A tie is rounded up when the signs agree, whatever the parity: `1 * 1 + 2 ^ 24` gives half of `2 ^ 24 + 2`, the nearest number with an even significand is `2 ^ 24`.
* `FpHw.C74_mixed_wrong` - (wrong). When the precision of the result exceeds twice the one of the factors, the product is not aligned with the addend: with binary16 factors and a binary32 addend, `1 * 1 + 0` is `1 / 16` and `1 * 1 + 1` is `9 / 16`.
* `CGen.C75_reuse_after_loop_wrong` - **C75 fails** when an operation that first appears in a loop body is used after the loop: the C program reads the variable of the loop body after its block was closed, or, as here, another variable to which the same name was given since. With `n = 5` the description returns `i + 1 = 6` and the C function `n * n = 25`.
* `CGen.C75_stale_value_wrong` - **C75 fails** when an operation is used before and after an assignment to a variable it reads: the value of the first use is used again. For every argument `n` the description returns `n + 2` and the C function `n + 1`.
* `CGen.C75_loop_condition_wrong` - **C75 fails** when the condition of a loop was already evaluated before the loop: the C program tests the value it had then, for ever.
* `CGen.C75_branch_local_wrong` - **C75 fails** when a local variable first appears in a branch of a conditional: it is declared in the block of that branch only, and what follows reads another variable, never initialised.
* `CGen.C75_argument_name_wrong` - **C75 fails** when the name hint of an operation is the name of an argument: arguments are in no symbol table, so inside a nested block the hint is taken as is and hides the argument.
* `Elem.C77_exp_underflow_wrong` - C77, wrong. A function requested with correct rounding (an accuracy `ML_Exponential` accepts) is not correctly rounded whatever the polynomial: in binary64 the generated function returns `+0` for `x = -745.0625`, whose exponential is above half of the least subnormal number.
* `Elem.C77_exp_goal_wrong` - C77, wrong. The criterion of the generator for a faithful function (a relative error of the polynomial below `local_ulp = 2^-f`) does not make the function faithful: there are evaluations of the polynomial which meet it and for which `exp(0)` is not `1`.
* `Elem.C78_div_zero_sign_wrong` - C78, wrong. A zero divided by a negative number or by `-inf` keeps its sign, whatever the format, the seed and the number of iterations.
* `Elem.C78_div_overflow_wrong` - C78, wrong. In every format, for every seed and every number of iterations, the quotient of `2^(emax-1)` by `3/8`, which is `4/3 * 2^emax` and has two neighbours in the format, is not faithful: the product of the scaling factors overflows.
* `Elem.C78_div_rounding_wrong` - C78, wrong. In binary32 with two iterations there is a seed with the accuracy `2^-8`, with which the quotient is faithful by the theorem above, but the quotient of two numbers in `[1, 2)` is not their correctly rounded quotient.
* `Elem.C79_sqrt_minus_zero_wrong` - C79, wrong. `sqrt(-0)` is `+0` for every format, seed and number of iterations: the branch that returns `-0` is never reached.
* `Elem.C79_rsqrt_minus_zero_wrong` - C79, wrong. The reciprocal square root of `-0` is `+inf`.
* `Elem.C79_sqrt_subnormal_wrong` - C79, wrong. The square root of a small subnormal number is a NaN, whatever the accuracy of the seed and the number of iterations (at least one).
* `Elem.C79_rsqrt_subnormal_wrong` - C79, wrong. So is its reciprocal square root with two iterations or more; with one it is `-inf` or a NaN.
* `Elem.C79_sqrt_rounding_wrong` - C79, wrong. In binary32, close to the subnormal numbers, there are a number and a seed accurate to the last place with which the square root is not the correctly rounded one, whatever the number of iterations: the seed is a fixed point of the iteration and the residual is not exact.
* `Elem.C79_rsqrt_faithful_wrong` - C79, wrong. In binary32, close to the largest number, there are a number and a seed accurate to two last places with which the reciprocal square root is not faithful, whatever the number of iterations: the square of the seed is subnormal.
* `Rem.C80_remquo_zero_sign_wrong` - C80: a dividend equal to plus or minus the divisor gives the positive zero, whatever its sign.
* `Rem.C80_remquo_half_wrong` - C80: in every format there is a normal divisor, with a normal dividend, for which the result is not the IEEE-754 remainder: half the divisor is rounded before it is compared to the remainder.
* `Rem.C81_fmod_inf_wrong` - C81: a finite number modulo an infinity is a NaN, it should be that number.
* `Rem.C81_fmod_zero_sign_wrong` - C81: a null result is the positive zero for a negative null dividend, and for a negative dividend equal to the divisor.
* `Rem.C81_fmod_overflow_wrong` - C81: two numbers whose quotient overflows give a NaN.
* `Rem.C81_fmod_sign_wrong` - C81: in every format there are operands of opposite signs for which the result is not smaller than the divisor: the divisor is added to a remainder that has its sign.
* `Rem.C81_fmod_underflow_wrong` - C81: in every format there are positive operands for which the result is negative: the product whose sign is tested underflows.
* `Trig.C82_sincos_half_turn_wrong` - C82, the code is wrong: with the constant and the parameters of the sine and the cosine, the reduction of every argument in `[2^77, 2^78)` whose last bit is set is wrong by half a period, an odd multiple of `2^14`
* `Trig.C82_sincos_table_wrong` - C82, the code is wrong: with the constant and the parameters of the sine and the cosine, every argument from `2^1012` on makes the loop read its tables past their end
* `Trig.C82_sincos_overflow_wrong` - C82, the code is wrong: with the constant and the parameters of the sine and the cosine, the integer conversion of the loop overflows for every argument of `[2^76, 2^77)` whose 27 low bits are at least four fifths of their range
* `Trig.C82_sincos_overflow_binade_wrong` - C82, the code is wrong: with the constant and the parameters of the sine and the cosine, the integer conversion of the loop overflows for every argument of `[2^51, 2^52)`
* `Trig.C83_sincos_negative_wrong` - C83, negation: the test that selects the reduction of the large arguments compares the argument, not its magnitude, to `2^33`: below `-2^51` the conversion to an integer of the other reduction overflows
* `Trig.C83_sincos_large_wrong` - C83, negation: on `[2^51, 2^52)` and from `2^1012` the reduction overflows or reads out of its tables
* `Trig.C83_sincos_std_wrong` - C83, negation: the first product of the reduction, that is marked as exact, is not: the argument `4294971459` is reduced with an error of more than `2^-22`
* `Fuse.C84_integer_wrong` - C84: the fusion of an integer sum, that the C backend supports, is not supported
* `Fuse.C84_dot_wrong` - C84: with the dot products enabled every sum of two products that may be optimised becomes an operation no backend supports
* `Fuse.C84_split_wrong` - C84: the fusion destroys the splitting of a number in two halves: the high half it returns is the number itself, whatever the number, while without the fusion the high half of 1 + 2^-52 is 1
* `X86.C85_unsigned_wrong` - C85: the ordered comparisons of unsigned integers are signed: half of the range is less than zero
* `X86.C85_select_nan_wrong` - C85: a selection on an ordered comparison of floating-point numbers returns zero, and not its second operand, when an operand of the comparison is a NaN
* `X86.C85_select_not_wrong` - C85: a selection whose condition is a negation raises an exception
* `X86.C85_select_mask_wrong` - C85: the lowering of a selection whose condition is not made of comparisons, like a vector of booleans, never ends
* `X86.C85_mask_test_wrong` - C85: a vector of nonzero lanes which are not all ones is reported to have a zero
* `X86.C86_constant_carry_wrong` - C86: a value that is too large carries into the next lane
* `X86.C86_constant_loop_wrong` - C86: the generation of a constant whose last value is too small never ends
* `X86.C86_float_conversion_wrong` - C86: and is not elsewhere: it rounds to nearest, where the conversion of a scalar rounds towards zero
* `X86.C86_mantissa_wrong` - C86: the mantissa of a zero is one; that of an infinity or of a NaN is a number; a subnormal number is not the product of its mantissa by a power of two
* `Typing.C87_integer_format_wrong` - C87: without an interval the format does not hold the integers out of 32 bits
* `Typing.C87_merge_mixed_wrong` - C87: the format of the operation on a 32-bit integer and a binary32 number, and that on a 64-bit integer and a binary64 one, are those of the latter: they do not hold the integers
* `Typing.C87_merge_int_wrong` - C87: an operation on a signed and an unsigned integers of the same size is signed: it does not hold half of the values of the second
* `Typing.C87_merge_small_wrong` - C87: an operation on integers of 8 or 16 bits, or on constants only, has no format: the pass fails
* `Typing.C87_shared_constant_wrong` - C87: a constant takes the format of the first operation that uses it: a sum in binary64 gets a constant of binary32, which does not hold its value
* `Typing.C87_comparison_constant_wrong` - C87: the constant compared with an integer of 16 bits loses its format, and that compared with an unsigned integer is unsigned whatever its value
* `Elem.C88_exp2_table_wrong` - C88, wrong. The clamp of the index is one past the end of the table: where the conversion of a NaN saturates to the greatest integer (RISC-V), `exp2(NaN)` reads the table out of its bounds.
* `Elem.C88_exp2_least_wrong` - C88, wrong. `2` to the least subnormal exponent is the least subnormal number; the generated function returns zero.
* `Elem.C88_exp2_top_wrong` - C88, wrong. On the last sixteenth below the overflow bound the scaled entry of the table, `2 * 2^emax`, overflows: with any polynomial part that is negative for a negative argument (as `2^r - 1` is) the generated function returns a NaN for EVERY input, where `2^x` is in the range of the format.
* `Elem.C89_pow_zero_inf_wrong` - C89, refuted for the null bases. Every format: the power `-inf` of a zero is `-inf` (the standard: `+inf`), its power `+inf` is `+inf` (the standard: `+0`).
* `Elem.C89_pow_negative_odd_wrong` - C89, refuted for the negative odd exponents (the remainder of C has the sign of the dividend, the test compares it to `1`): for EVERY one the power of `-0` is `+inf` (the standard: `-inf`), that of `-inf` is `+0` (the standard: `-0`).
* `Elem.C89_pow_sign_wrong` - C89, refuted for the negative bases: the sign of a finite base is lost. EVERY non-null base and exponent of every format: the power of `-v` is that of `v` (the standard: the opposite if the exponent is odd, a NaN if it is not an integer).
* `Elem.C89_pow_invalid_wrong` - so a positive base and its opposite cannot both have the right power: the standard wants a NaN for the opposite when the exponent is not an integer
* `Elem.C89_pow_one_nan_wrong` - C89, refuted for the base `1`: its test is a constant, the power of `1` by a NaN is a NaN (the standard: `1`), if the undefined conversion of a NaN is not out of the table
* `Elem.C89_pow_two_fraction_wrong` - C89, refuted for the exponents that are not integers: EVERY one at less than `1/2` of an integer `n` has the power `2^n` exactly. The fraction of the product by the exponent of the base is the difference of the product and itself.
* `Elem.C89_pow_two_wrap_wrong` - C89, refuted for the powers of `2` that are too great or too small: the exponent wraps around. `2^(emax+2)` is `+0`, `2^(emin-2)` is `+inf`; EVERY exponent `n` below `2 emax` in absolute value whose residue modulo `2^e` is `j ≠ n`, a normal exponent, has the power `2^j`.
* `Elem.C89_pow_nan_base_wrong` - C89, refuted for a quiet NaN base, whose exponent and mantissa are read as those of a number: EVERY non-null exponent below `2^(-e)` in absolute value gives a finite number (the standard: a NaN), if the approximation of the logarithm of the mantissa of the NaN is between `-1` and `1` and the one of `exp2` has the precision of `C88_exp2_error_partial`.
* `Lin.C90_shared_blocks_wrong` - A node used in two blocks is computed only in the first one: when the second branch is taken the function returns what its register happened to hold.
* `Lin.C90_stale_wrong` - A node used again after an assignment to its variable keeps its old value.
* `Lin.C90_two_returns_wrong` - With two returned expressions the function has two output registers, each right on one path only.
* `Lin.C90_phi_wrong` - A program with a phi node is never linearized.
* `Lin.C90_constant_return_wrong` - A function that returns a constant is never linearized.
* `Lin.C90_unused_argument_wrong` - A function one of whose arguments is never read is never linearized.
* `Crit.C91_signal_wrong` - The chain of `n` additions is reported as one addition, whatever `n` is.
* `Crit.C91_comparison_wrong` - A comparison of operands of any size, whose result is one bit, is given no delay when it orders them and one gate when it tests their equality.
* `Crit.C91_shift_wrong` - A shift is given the delay of its data size, whatever the number of bits of the amount.
* `Atan.C92_atan_minus_zero_wrong` - **C92, disagreement.** C99 F.9.1.3: `atan(±0)` returns `±0`. The generated function returns `+0` for `-0`, for every approximation that returns a zero at zero.
* `Atan.C92_single_wrong` - **C92, disagreement.** Method "single" has no argument reduction: at the infinities the result is never the finite `±π/2`, and at any `x > 2` it is above `π/2` (no arc tangent is) as soon as the polynomial, there used outside of its interval, is not negative.
* `Atan.C93_plus_zero_wrong` - **C93, disagreement.** For `x = +0` and every `y` that is neither null nor a NaN, infinite or finite, the documented angle is `±π/2` with the sign of `y`; the generated function returns the opposite angle, up to the error of the other cases.
* `Atan.C93_minus_zero_wrong` - **C93, disagreement.** `atan2(-0, x)` is documented to return `-0` for `x > 0`. The generated function returns `+0` for every positive number `x`, for every approximation that returns a zero at zero.
* `Atan.C93_invalid_wrong` - **C93, disagreement.** `atan2` of two zeros and of two infinities is documented (`±0`, `±π`, `±π/4`, `±3π/4`). The generated function divides them: for an approximation that hands a NaN on, it returns a NaN in all the eight cases.
* `Tanh.C94_tanh_nan_wrong` - **C94, disagreement.** A NaN has to give a NaN (IEEE-754, C99 F.9). The generated function returns `1`.
* `Tanh.C94_tanh_minus_zero_wrong` - **C94, disagreement.** `tanh(-0)` has to be `-0` (C99 F.9.2.6). The generated function returns `+0`, as soon as the polynomial is 1 at zero.
* `Search.C95_result_wrong` - **C95, disagreement.** The documented result is a number where the function, rounded, reaches the limit. Whatever the function, the bounds and the format, no search that ends returns such a number: rounded to nearest, and already rounded upwards unless the start point is returned, the function is below the limit there.
* `Search.C95_endless_wrong` - **C95, disagreement.** The search does not end if it starts at a power of two (the error function is searched from `1.0` and the gamma function from `2`) and the limit is reached by all the numbers above it: `fp_next` of a power of two is that power of two, so that the loop never sees adjacent bounds.
* `Search.C95_mirror_endless_wrong` - **C95, disagreement.** The decreasing variant does not end either, from a power of two that is the last number to reach the limit: the result it is looking for.
* `Cbrt.C96_negative_wrong` - **C96, disagreement.** The cube root of a negative number is never a negative number: the first approximation is positive and the iterations never change its sign (they diverge, the inverse being negative).
* `Cbrt.C96_minus_zero_wrong` - **C96, disagreement.** The cube root of `-0` is `+0`.
* `Cbrt.C96_subnormal_wrong` - **C96, disagreement.** The cube root of a subnormal number below a quarter of the smallest normal one is `-∞`: its inverse overflows.
* `Cbrt.C96_infinity_wrong` - **C96, disagreement.** The cube root of an infinity is a NaN: the cube of the approximation overflows, and is multiplied by the inverse, which is null.
* `Backend.C97_language_wrong` - **C97, disagreement.** For any other language no operation at all is reported as supported, although an implementation may be found for it: the map is built for the default language of the class only, which is C for all the targets (none redefines `DEFAULT_LANGUAGE`), those that generate LLVM-IR or VHDL included.
* `Backend.C98_order_wrong` - **C98, disagreement.** With multiple inheritance a target may come after its own base, whose implementation is then preferred to its own (Python would search the target first): the classes `D(X, B)`, `X(A)`, `B(C)`, `C(A)`.
* `Subnorm.C99_negative_wrong` - **C99, disagreement.** The rounding factor is positive whatever the sign of the operand. With a negative one the sum falls in a lower binade: the pair is rounded to a grid that is too fine (here not at all), and the final scaling rounds a second time, to another number than the rounding of the pair.
* `Subnorm.C99_small_low_wrong` - **C99, disagreement.** A low component that is too small is lost in the intermediate sum: a pair just above the middle of two subnormal numbers is rounded down.
* `Subnorm.C99_normal_wrong` - **C99, disagreement.** A number that is not in the subnormal range after scaling loses its last bit, although it should be returned unchanged.
* `Subnorm.C100_tie_wrong` - **C100, a disagreement.** With a negative high part and a low part `+0`, as the exact difference of two doubles gives, a tie is rounded to the odd neighbour: the sign of the zero is taken for the sign of a remainder.
* `Subnorm.C100_undefined_wrong` - **C100, a disagreement.** When one bit or more than 30 have to be dropped, or when the number is not subnormal after scaling, the behaviour of the C function is undefined: it shifts a 64-bit integer by 64 or more, or an `int` by more than 30. Up to 53 bits of a double may have to be dropped.
* `Share.C101_guard_wrong` - **C101, a disagreement.** A node used twice inside one branch is computed before the test that guards the branch: the search for a definition in the enclosing levels looks at the outermost level only. Here a table is read out of its bounds although the program tests the index.
* `Share.C101_return_wrong` - **C101, a disagreement.** A return node (or a node raising an exception) used in two branches is itself put before the conditional: the function then always returns there.
* `Bipart.C102_output_wrong` - **C102, a disagreement.** The reported error does not bound the error of what the block delivers: for the constant function 1 - 2^-21, whose tables are exact, it is zero, and the output, in the format `fixed_point(1, 15)`, is off by 2^-15 - 2^-21 for every input.
* `Arr.C103_overlap_wrong` - The condition on the position of the arrays is needed: with the destination one element after the source, an element read has been overwritten.
* `Arr.C103_vla_mask_wrong` - **C103 is violated** outside the likely path: the mask of the vectorizer is not used, so an element for which the scalar function returns another value gets the value of the likely path.
* `Arr.C103_vla_wide_wrong` - **C103 is violated** when an operation is on wider elements than the group of registers can hold for the granted length: with 128-bit registers, a group size of 1, an array of 32-bit elements and one 64-bit operation, the third element is left to whatever the register held (`tail`).
* `Arr.C103_vla_length_wrong` - **C103 is violated** from `2^31` elements on: the length is read as a negative number and nothing is computed.
* `Softmax.C104_overflow_wrong` - **C104 is violated** as soon as one exponential overflows: its element becomes a NaN, though no softmax value exceeds 1.
* `Softmax.C104_overflow_binary32_wrong` - the softmax of one number is 1; the binary32 function returns a NaN for the array `{100.0f}`
* `Softmax.C104_underflow_wrong` - **C104 is violated** when all the exponentials underflow: the sum is zero and every element becomes a NaN.
* `Kulisch.C105_extra_digit_wrong` - **C105 is false without an extra digit**: the accumulator meant to hold any product reads a product of at least `2 ^ (2 emax + 1)` as a negative number.
* `Kulisch.C105_subnormal_wrong` - **C105 is false for subnormal numbers**: a subnormal number times a number of at least `2 ^ (emin + 1)` adds the half of the product.
* `Kulisch.C105_zero_sign_wrong` - **the sign of a null sum**: when a negative product cancels a positive accumulator, the result is zero with a negative sign (`numeric_emulate`, the reference of the test benches, expects a positive one).
* `Piecewise.C106_extra_term_wrong` - **C106 is false for the polynomials of the largest degree**: the value differs from the polynomial everywhere but at the offset.
* `Piecewise.C106_generated_wrong` - **C106 is false for every generated approximation**: when the degrees are the ones of the polynomials, there is a sub-interval where the value of the graph is not the one of the polynomial, except at its offset.
* `Piecewise.C106_load_error_wrong` - **C106 (loading, error) is false**: the error of an approximation whose polynomials have all their coefficients is loaded as zero.
* `Axf.C107_tag_wrong` - **C107 (tag) is false for a single polynomial**: the approximation which is loaded does not depend on the tag.
* `Axf.C107_from_objects_wrong` - **C107 (from an approximation object) is false**: the three conversions of an existing approximation to its stored form always fail.
* `Bfloat.C108_narrow_nan_wrong` - **C108 (narrowing, NaN) is false**: a NaN whose payload is in the low bits becomes an infinity.
* `Bfloat.C108_constant_wrong` - **C108 (constants) is false**: a constant above the middle of two numbers of the format is not given the nearest one.
* `Bfloat.C108_round_wrong` - **C108 (rounding) is false**: the numbers of `[1, 2)` with 10 bits after the point are unchanged, though the format only has 7.
* `Log.C109_binary64_wrong` - binary64: for every rounding to nearest and every polynomial, as good as it may be, the generated logarithm of `3/2 - 2^-40` is wrong by more than `2^-8`: the seed rounds its operand to binary32 and looks up the next entry, the table of logarithms does not.
* `Log.C109_near_one_wrong` - binary32: whatever polynomial of binary32 coefficients is used and however it is evaluated, as long as its value is a binary32 number, the generated logarithm of `1 - 2^-23` has a relative error of more than `2^-20`, that is more than eight units in the last place: the product by the reduced argument, close to `2^-8`, cannot be accurate enough for the cancellation with the logarithm of the seed.
* `Rootn.C110_minus_zero_wrong` - the root of even positive order of `-0` is `-0` instead of `+0`.
* `Hyper.C111_sinh_zero_wrong` - wrong: the hyperbolic sine of `-0` is `+0`.
* `Hyper.C111_sinh_least_wrong` - wrong: the hyperbolic sine of the least positive number, which is a number slightly greater, is computed as zero, as soon as the polynomial, whose linear coefficient is one, is right there.
* `Hyper.C111_erf_nan_wrong` - wrong: the error function of a NaN is `1`.
* `Hyper.C111_erf_zero_wrong` - wrong: the error function of `-0` is that of `+0`; one of the two is wrong.
* `Hyper.C111_expm1_zero_wrong` - wrong: `expm1(-0)` is `+0`.
* `Hyper.C111_log1p_subnormal_wrong` - wrong: whatever the approximation, every positive subnormal number has the same `log1p` as `+0`, so that for two of them at most one is right.
* `Hyper.C111_log1p_pole_wrong` - wrong: `log1p(-1)` is not the negative infinity if the approximation of a finite reduced argument is finite.
* `Alloc.C112_clobber_wrong` - wrong: the register of a result is the register of an argument from the start of the function. The function that returns `y + x` returns `2 y`, with every colouring; the allocator accepts colourings.
* `Alloc.C112_argument_wrong` - wrong: a function of two arguments that returns the second one returns the first one, with every colouring.
* `Alloc.C112_constant_branch_wrong` - wrong: a program with a branch on a constant is refused.
* `Llvm.C113_negation_wrong` - wrong: the negation of a floating-point number is a subtraction from zero. It gives the opposite of every number and infinity but `+0`, whose opposite is `+0`.
* `Llvm.C113_vector_negation_wrong` - wrong: the negations and the complements of vectors have a scalar literal, which LLVM refuses.
* `Llvm.C113_nearest_wrong` - wrong: the nearest integer in an integer format is the integer part.
* `Llvm.C113_nearest_refused_wrong` - wrong: the rounding of a double to an integer reads it as a single, and the rounding of a vector calls the function of the scalars: LLVM refuses both.
* `Llvm.C113_predicates_wrong` - wrong: LLVM has no predicate `ne` for floating-point numbers and no predicate `ge` for integers.
* `Llvm.C113_comparison_format_wrong` - wrong: a comparison whose result is declared as a 32-bit integer gives a boolean.
* `Llvm.C113_mask_wrong` - wrong: the test that no lane of a mask is false is true when all the lanes are false, and only then.
* `Llvm.C113_fused_wrong` - wrong: `a * b - c`, fused, of `-0`, a positive number and `+0` is `+0` instead of `-0`.
* `LlvmGen.C114_undefined_wrong` - wrong: a variable that is assigned another variable, or an operation already assigned to another variable before in the text, is never defined: no instruction of the text gives a value to its register.
* `LlvmGen.C114_siblings_wrong` - wrong: a node shared by the two branches of a test is generated in the first one only: the second one returns a register that no instruction of its path defines.
* `LlvmGen.C114_constant_wrong` - wrong: a floating-point constant assigned to a variable is added to zero. The sum is the constant for every number, infinity and NaN but `-0`, which becomes `+0`.
* `ChkPass.C115_second_check_wrong` - wrong: the map of a pass keeps the check of each node alone, and the pass keeps its map. Executed again on a node it has met, a pass gives the check of this node alone, whatever the nodes below it are.
* `ChkPass.C115_language_wrong` - wrong: the language is not passed to the inputs. For another language than C, a graph is accepted exactly when its root is supported for this language and everything below it for C: below the root, operations that the language does not support are accepted and operations that only C does not support are refused.
* `ChkPass.C115_cycle_wrong` - wrong: the check of the support never ends on a graph with a cycle through its inputs, such as basic blocks with a loop.
* `Vhdl.C116_add_mixed_wrong` - C116, where it fails: a signed and an unsigned operand of four bits, with a signed result of eight bits. The circuit of `7 + 15` computes `-10`.
* `Vhdl.C116_add_unsigned_wrong` - C116, where it fails: two unsigned operands of four bits with a signed result of eight bits. The circuit of `15 + 15` computes `-2`.
* `Vhdl.C116_mul_wrong` - C116, where it fails: two unsigned operands of four bits with a signed result of twelve bits. The circuit of `15 × 15` computes `-31`.
* `Vhdl.C116_equal_wrong` - C116, where it fails: the circuit of an equality between two signals of the same length with different formats takes `1` and `16` for equal, `1` and `1` for different, and `-1` and `15` for equal.
* `Vhdl.C116_shift_right_wrong` - C116, where it fails: the operand of a shift is converted to the format of the result before it is shifted. The circuit of `240` shifted by four places to the right, in a format of four bits, computes `0` and not `15`.
* `Vhdl.C116_shift_arith_wrong` - C116, where it fails: an arithmetic right shift of an unsigned number copies its most significant bit. The circuit of `8` shifted by one place, in a format of four bits without sign, computes `12` and not `4`.
* `Vhdl.C116_shift_constant_wrong` - C116, where it fails: a shift by a constant moves the bits of the operand without converting them to the format of the result. The circuit of `1` shifted by zero places, from a format with four fraction bits to one without, computes `16`.
* `Gappa.C117_division_wrong` - **Divisions.** A division is not rounded in the script, so the error of a division in floating-point arithmetic is reported as zero.
* `Gappa.C117_negation_wrong` - **Negations.** The graph that should be exact still has the rounding of a negation, so for `-(x + y)` both sides are rounded once and the error is reported as zero (for roundings that are symmetric, as rounding to nearest is).
* `Gappa.C117_conversion_wrong` - **Conversions.** The graph that should be exact still has the rounding of a conversion: the error of the conversion of a binary64 number to binary32 is reported as zero.
* `Gappa.C117_same_tag_wrong` - **Equal names.** Two variables with the same tag are one number in the script, so the difference of two variables is reported to be exact.
* `Gappa.C117_tag_wrong` - **Names of operations.** The names of the variables do not count as taken: an operation tagged like a variable redefines it, and the hypothesis on the variable becomes one on the operation. Here it contradicts the others, so that any interval answers the script.
* `Gappa.C117_quantized_wrong` - **Approximate variables.** When the machine has a variable only approximately, the script takes the exact value to be a number of the format of the variable, which it need not be: an interval without such numbers makes the hypotheses contradictory, and any interval answers the script.
* `Gappa.C117_first_version_wrong` - **The first version.** `get_eval_error` takes the difference of a graph with itself: whatever the graph (whose root is an operation other than a conversion), the interval `[0, 0]` answers the script, and there are graphs with another error.
* `Gappa.C117_cases_wrong` - **Intervals of the variables.** After `get_eval_error_v3` the variables have the intervals of the last case: a value that was allowed before is not allowed any more. Without cases there is no script at all.
* `Gappa.C117_interval_wrong` - **Last rounding.** `get_interval_code` makes the goal exact: the sum that the machine computes is not in the interval, and the rounding of a number to an integer is not in the interval either (for any rounding to an integer).
* `Mll.C118_constant_format_wrong` - **Constants that do not fit.** A constant that is not the sum of three words is said to be exact all the same; and for a polynomial of degree 0 the reported error is zero although the constant has been rounded.
* `Mll.C118_binary32_wrong` - **Binary32 contexts.** The words of a constant are counted in binary64: in a context of binary32 words zero takes three words, and a constant that is the sum of two binary64 words has no format although three binary32 words hold it.
* `Mll.C118_target_wrong` - **The target.** The errors that are required of the operations do not add up to the target: for the polynomial `x`, whose constants are exact, with a variable of three words that is converted to two words, an implementation that keeps to all errors required of it has a relative error beyond the target. Here for the targets `2 ^ -n` with `n` from 53 to 100.
* `Mll.C118_cancellation_wrong` - **Cancellation.** When the monomials cancel, the relative error of the result is not bounded at all, whatever the target: for the polynomial `1 - x` and every bound there is a value of the variable for which an implementation that keeps to all errors required of it has a relative error beyond the bound.
* `Mll.C118_missing_wrong` - **Missing coefficients.** A polynomial without one of its lower coefficients, as an odd or even one, is not implemented at all.
* `Mll.C118_budget_wrong` - **Budgets.** `get_mul_error_budget` should give the error that a product may make for the result to be within the target. Its formula does, when the errors of the operands leave room; but then its assertion fails, and when the assertion holds the result is not positive.
* `Mll.C118_descriptor_wrong` - **Descriptor.** When the result is renormalized, the descriptor that is recorded is that of the renormalized left operand: the error of the sum is lost.
* `FastTrig.C119_negative_value_wrong` - **Negative table values.** On intervals that end at 4 or later, whenever the value of the table is negative the result is off by 4 or more, up to the error above: the value is shifted to the right as an unsigned number.
* `FastTrig.C119_negative_wrong` - **Negative inputs.** For every negative input of the interval, and for the end of the interval, the access to the table is out of bounds.
* `FastTrig.C119_small_interval_wrong` - **Small intervals.** On an interval that ends at 1/2 or earlier the result of the cosine is at most 1/2 in magnitude, for every input, although the cosines of the interval are above 7/8.
* `FastTrig.C119_tiny_wrong` - **Tiny inputs.** With an exact first line in the table, the sine of every input below half a unit is 0, although the sine of a positive input is positive: the relative error is 1, whatever accuracy is asked for.
* `Mask.C120_not_equal_wrong` - C120: in C, every lane of the difference of two vectors is the contrary of what it should be: the code is that of their equality
* `Mask.C120_not_assembled_wrong` - C120: in C, the negation of a vector assembled from scalar booleans is true in all lanes, whatever the booleans
* `Mask.C120_lib_test_wrong` - C120: the library has no test for masks of three lanes and for 64-bit masks, although `v3bool`, `v4lbool` and the others are formats of the target
* `Mask.C120_any_difference_wrong` - C120: the test whether some lanes of two vectors differ, with or without the pass, is true for equal vectors
* `VecTable.C121_three_wrong` - C121: no code for vectors of three lanes is valid, although the table has it: the types do not exist in the support library
* `VecTable.C121_shift_wrong` - C121: the logic shift to the right of signed vectors fills with the sign bit, and the arithmetic one of unsigned vectors fills with zeros
* `VecTable.C121_cast_wrong` - C121: a cast between signed and unsigned vectors of eight lanes leaves the last four lanes as they were before
* `VecTable.C121_convert_wrong` - C121: so does the conversion of eight 64-bit unsigned integers to 32 bits
* `VecTable.C121_exponent_wrong` - C121: the function called for the exponents of double precision numbers as 32-bit integers writes a vector of 64-bit integers
* `Recip.C122_nearest_wrong` - Where the rounding is wrong: when the significand divides `2 ^ 48 - 1` and is 3 modulo 4, the last bit is wrong, for every exponent, for both signs, and whatever the rounding of the entries of the table.
* `Recip.C122_large_wrong` - Above `2 ^ 127` the result is not a number (the reciprocal is a number below `2 ^ -127`, which the format can approach).
* `Recip.C122_small_wrong` - From `9/8 * 2 ^ 126` on, below `2 ^ 127`, the result is a zero or less than nine tenths of the reciprocal.
* `Recip.C122_nan_wrong` - For every NaN the result is a number.
* `Recip.C122_special_wrong` - The reciprocals of the infinities are infinities, those of the zeros are numbers, and that of `2 ^ -127` is less than `2 ^ 127`, although this number is in the format.
* `Recip.C122_double_wrong` - In double precision the result has less than forty correct bits for some inputs: the format of the last error is too narrow.
* `Recip.C122_narrow_wrong` - For the formats with less than 16 fraction bits (half precision, bfloat16) the circuit is not legal.
* `Mprec.C123_fastsum_wrong` - **C123 fails** under the documented hypothesis of the fast sum, `x >= y`: with `x` positive and `y` negative and larger in magnitude the pair is not the sum.
* `Mprec.C123_product_wrong` - **C123 fails** for the documented "exact result" of the product: `(2^-540 + 2^-592)^2` is not.
* `Mprec.C123_fma_wrong` - **C123 fails** for the multiply-add with a double result: whatever the rounding to nearest does with ties, the result differs from the fused multiply-add for some operands of ordinary size (two roundings).
* `Mprec.C123_overflow_wrong` - **C123 fails** for large doubles, in `ml_split_dd_d_safe` as in `ml_split_dd_d`: `2^997` is finite and so is its product by one, but splitting it overflows, and the product pair is not finite.
* `Rvv.C124_floor_wrong` - The floor of a negative number that is not an integer is one too large.
* `Rvv.C124_conversion_wrong` - The conversion of floats to integers rounds to nearest: it is not the C conversion for each number whose fractional part is over one half.
* `Rvv.C124_large_wrong` - Numbers beyond the signed integers of the width, which are integers, are all rounded to the same number: two different ones get the same result, so for one of them it is not the number itself.
* `Rvv.C124_function_wrong` - Among the operations of the table, each of these has a combination of formats whose expression does not compile.
* `Rvv.C124_index_wrong` - With elements of another size, each lane whose index is not 0 reads at a wrong address.
* `Exp2i.C125_clamp_wrong` - (wrong: gradual underflow and overflow). Below the normal numbers `2^x` is still a number of the format, and the function returns a larger one. Above the largest exponent, `2^x` is larger than every number of the format, and the function returns a finite number.
* `Exp2i.C125_legalized_wrong` - (wrong: legalization). The expansion of the insertion adds the bias a second time: after it the function returns `2^x` for no input at all.
* `VBool.C128_mixed_wrong` - (wrong: two widths). A connective of a mask of 32-bit lanes and of one of 64-bit lanes gets 64-bit lanes, and its first operand keeps its 32-bit lanes.
* `VBool.C128_test_wrong` - (wrong: other tests). A test that is not in the list of the pass keeps its boolean lanes without a width, for which there is no C type.
* `VBool.C128_width_wrong` - (wrong: other widths). A comparison of lanes that do not have 32 or 64 bits stops the pass.
* `VBool.C128_assembling_wrong` - (wrong: assembling). Only the first two operands of an assembling decide: a third operand with wider lanes is ignored.
* `FctExpr.C129_skipped_variable_wrong` - `x + z` is well formed and is refused: two variables are counted and the names defined are `x` and `y`.
* `FctExpr.C129_atan2_wrong` - In the left half-plane the reference value is never the angle.
* `Tags.C130_same_name_wrong` - `Loop` and `RangeLoop` are two classes named "Loop" (metalibm_core/core/ml_operations.py:1298, ml_hdl_operations.py:172): their first untagged nodes both become `Loop_1`.
* `Tags.C130_user_tag_wrong` - A tag given by the user is given again to another node.
* `LogFx.C131_cut_wrong` - **C131, a disagreement.** When the second inverses have fewer bits than the first ones, `y` is cut on the way although the comment says that nothing is lost: the format of `v_y` has `prec2` instead of `prec1`.
* `LogFx.C131_tables_wrong` - **C131, a disagreement.** None of the entries the generator writes into the two tables is the inverse it stands for, whatever the sizes, and the last entry of each is left unset; the entries of the second do not even depend on the index.
* `LogFx.C131_exponent_wrong` - **C131, a disagreement.** The exponent of the argument is not used: whatever the tables and the polynomial, every significand for which a value is returned has an argument in the format whose result is more than 700 away from the logarithm.
* `VLog.C132_vector_binary64_wrong` - **C132, a disagreement.** With a vector backend and 64-bit integers (binary64) the correction of the comparison's encoding is dropped and every result is too small by the logarithm of two.
* `VLog.C132_zero_wrong` - **C132, a disagreement.** Zero is not kept out by the subtraction of one, as the comment says: the comparison is signed, and the shift amount found for zero is the bias of the format, larger than the width of the integers (127 and 1023).
* `VLog.C132_fine_table_wrong` - **C132, a disagreement.** A table finer than the reciprocal (`t = 12` with the `1.5 * 2 ^ -12` assumed for the hardware's) breaks the index: with a mantissa just below two, the number taken from the reciprocal is below 1/2 and the table holds the logarithm of its double.
* `RtlSw.C133_wide_wrong` - Vectors of more than 128 bits are given a format for which there is no C type.
* `RtlSw.C133_scheme_wrong` - Otherwise the scheme of the function becomes a format, and the function has no code left.
* `RtlSw.C133_kept_wrong` - Calls, tables of the first kind, and operations on signed or unsigned hardware integers keep their hardware format.
* `RtlSw.C133_copy_wrong` - A table which the pass has translated gives, once copied, a table of the hardware format it was built with.
* `Extern.C134_same_name_wrong` - Two different arguments can give two parameters of the same name.
* `Extern.C134_no_return_wrong` - The function made from a variable, a constant, a table or a call to another function (operation 3 below, not of an arithmetic class) returns nothing, though the format of its result is declared.
* `Extern.C134_table_argument_wrong` - A constant table given as an argument is not replaced by the parameter: the function computes with the table whatever it is called with.
* `Extern.C134_mutable_table_wrong` - A table which is written is duplicated: the function reads and writes a table of its own.
* `Extern.C134_externalizer_wrong` - The method of the externalizer object always fails: it gives the tag twice.
* `LogRep.C135_braces_wrong` - A message which contains a brace, for instance because the text of a node was put in it beforehand, is harmless as long as its level is not shown and stops the generator when it is.
* `LogRep.C135_sub_level_wrong` - A report at a sub-level of the error level is shown as an error but returns: only the error level itself stops the generator.
* `Stages.C136_shared_wrong` - A shared operand gets the stage of the user met first, which can be later than the stage of another user: the order of the stages was respected before, and is not in the end.
* `Stages.C136_execute_wrong` - The pass gives the map for the stage: a root without a stage, and then every node without a stage which inherits from it, gets an object which is not a number.
* `FnGroup.C137_added_wrong` - A sub-function added while the core functions are gone through is in the group in the end, and the routine was not applied to it.
* `FnGroup.C137_merge_same_wrong` - Merging a group which holds the same list of sub-functions does not end.
* `FnGroup.C137_merge_names_wrong` - A core function of the merged group which shares its name with a sub-function of that group is no longer the one found by that name.
* `FnGroup.C137_main` - the main function calls every test and benchmark wrapper once, in order, whatever they return; it returns 0 if no check fails and 1 otherwise. All the wrappers are in the group which is generated.
* `Entity.C138_stage_wrong` - After a second entity is made, starting a stage of the first has no effect on the nodes made next: the node is in stage 0 although the first entity is in stage 2.
* `Entity.C138_no_stage_wrong` - A node made before the first entity has no stage at all.
* `Entity.C138_same_name_wrong` - Two inputs, or an input and an output, can be given the same name: the declaration then has two ports of the same name.
* `Entity.C138_reserved_wrong` - The name of an input registered from outside is not reserved.
* `Comp.C139_shared_wrong` - Two instances made with the same dictionary: replacing the operand of the first changes the wiring of the second, whose operand is unchanged.
* `Comp.C139_same_name_wrong` - Two components with the same name: one declaration is left, for the second.
* `Comp.C139_missing_wrong` - An instance which leaves an input of its component without a signal is accepted.
* `Exc.C140_untyped_wrong` - An operation whose type was not instantiated stays, and the flag is raised.
* `SBool.C141_root_wrong` - Roots for which the pass returns `None`: a typed comparison, a test which it does not know.
* `SBool.C141_execute_wrong` - `execute` on a number gives `None`.
* `SBool.C141_width_wrong` - A comparison of numbers of 80 or 128 bits stops the pass with a `KeyError`.
* `SBool.C141_mixed_wrong` - A connective of booleans of different widths keeps operands of different widths.
* `Acos.C143_domain_wrong` - For every number of the domain the generated function is wrong, whatever the accuracy.
* `Acos.C143_block_wrong` - The hypothesis on the polynomial says nothing about the rest of the domain: there are functions which are exact on `[-1/2, 1/2]` with which the block is wrong at 1.
* `Disp.C144_sign_wrong` - C144 fails: for all sizes with a container of at most 64 bits, a format without sign created after the one with a sign is displayed as a number with a sign, so all the codes of the upper half are displayed as negative numbers.
* `Disp.C144_wide_wrong` - C144 fails: integers of 65 to 128 bits are displayed with a conversion which does not exist, whatever their sign.
* `Disp.C144_digits_wrong` - C144 fails: the digits of the words are written one after the other, the lowest word first and without leading zeros, so different codes have the same digits: `2^64` times a digit plus a digit times 16 plus a digit, and the like.

## What is modelled

Files of `/repo` cited by the definitions of the model, per area; the lines are in the comment of each definition.

| area | files |
|------|-------|
| Acos | `metalibm_functions/ml_acos.py` |
| Alloc | `metalibm_core/code_generation/asmde_translator.py`, `metalibm_core/opt/p_machine_code_gen.py`, `metalibm_core/targets/common/dummy_asm_target.py` |
| Arr | `metalibm_core/core/vla_vectorizer.py`, `metalibm_core/targets/riscv/riscv_vector.py`, `metalibm_functions/vectorial_function.py`, `metalibm_functions/vla_function.py` |
| Atan | `metalibm_functions/ml_atan.py` |
| Axf | `metalibm_core/core/approximation.py`, `metalibm_core/utility/axf_utils.py` |
| BB | `metalibm_core/core/bb_operations.py`, `metalibm_core/core/ml_operations.py`, `metalibm_core/opt/p_gen_bb.py` |
| Backend | `metalibm_core/code_generation/abstract_backend.py`, `metalibm_core/code_generation/generator_utility.py` |
| Bfloat | `metalibm_core/code_generation/generic_processor.py`, `metalibm_core/core/ml_formats.py` |
| Bipart | `metalibm_core/core/ml_formats.py`, `metalibm_hw_blocks/bipartite_approx.py` |
| Blocks | `metalibm_core/core/ml_operations.py`, `metalibm_core/core/multi_precision.py`, `metalibm_core/opt/ml_blocks.py`, `metalibm_core/opt/p_expand_multi_precision.py` |
| CFG | `metalibm_core/core/bb_operations.py`, `metalibm_core/opt/p_gen_bb.py` |
| CGen | `metalibm_core/code_generation/abstract_backend.py`, `metalibm_core/code_generation/code_function.py`, `metalibm_core/code_generation/code_object.py`, `metalibm_core/code_generation/generator_utility.py`, `metalibm_core/code_generation/generators/c_code_generator.py`, `metalibm_core/core/ml_function.py` |
| Cbrt | `metalibm_core/core/ml_formats.py`, `metalibm_functions/ml_cbrt.py` |
| Check | `metalibm_core/core/legalizer.py`, `metalibm_core/core/ml_formats.py`, `metalibm_core/core/ml_function.py`, `metalibm_core/core/precisions.py` |
| ChkPass | `metalibm_core/opt/p_check_precision.py`, `metalibm_core/opt/p_check_support.py` |
| Comp | `metalibm_core/code_generation/code_object.py`, `metalibm_core/code_generation/vhdl_code_generator.py`, `metalibm_core/core/ml_hdl_operations.py`, `metalibm_core/core/ml_operations.py` |
| Crit | `metalibm_core/opt/p_auto_pipeline.py` |
| Disp | `metalibm_core/core/display_utils.py`, `metalibm_core/core/ml_formats.py` |
| Elem | `metalibm_core/code_generation/generic_processor.py`, `metalibm_core/core/ml_formats.py`, `metalibm_core/core/ml_operations.py`, `metalibm_functions/generic_log.py`, `metalibm_functions/ml_div.py`, `metalibm_functions/ml_exp.py`, `metalibm_functions/ml_exp2.py`, `metalibm_functions/ml_isqrt.py`, `metalibm_functions/ml_sqrt.py`, `metalibm_functions/pow.py` |
| Entity | `metalibm_core/code_generation/code_entity.py`, `metalibm_core/core/attributes.py`, `metalibm_hw_blocks/ml_fp_mpfma.py` |
| ErrEval | `metalibm_core/opt/runtime_error_eval.py` |
| Exc | `metalibm_core/code_generation/abstract_backend.py`, `metalibm_core/code_generation/generator_utility.py`, `metalibm_core/core/ml_operations.py`, `metalibm_core/opt/generic_lowering.py`, `metalibm_core/opt/p_lower_exception.py` |
| Exp2i | `metalibm_core/code_generation/generic_processor.py`, `metalibm_core/opt/p_basic_legalization.py`, `metalibm_functions/fast_exp2i.py` |
| Extern | `metalibm_core/code_generation/code_function.py`, `metalibm_core/core/ml_call_externalizer.py`, `metalibm_core/core/ml_operations.py`, `metalibm_core/core/ml_table.py` |
| FastTrig | `metalibm_functions/ml_fast_sincos.py` |
| FctExpr | `metalibm_core/core/ml_operations.py`, `metalibm_functions/function_expr.py`, `metalibm_functions/function_map.py` |
| FixC | `metalibm_core/code_generation/generator_utility.py`, `metalibm_core/code_generation/generic_processor.py`, `metalibm_core/core/ml_formats.py`, `metalibm_core/targets/common/fixed_point_backend.py` |
| Fixed | `metalibm_core/core/ml_formats.py`, `metalibm_core/core/ml_hdl_format.py`, `metalibm_core/opt/p_size_datapath.py`, `metalibm_core/opt/rtl_fixed_point_utils.py` |
| Float | `metalibm_core/core/ml_formats.py`, `metalibm_core/core/special_values.py`, `metalibm_core/utility/num_utils.py` |
| Fn | `metalibm_functions/remquo.py` |
| FnGroup | `metalibm_core/code_generation/code_function.py`, `metalibm_core/core/ml_function.py` |
| FpHw | `metalibm_core/code_generation/vhdl_backend.py`, `metalibm_core/core/hdl_legalizer.py`, `metalibm_core/core/ml_formats.py`, `metalibm_core/core/ml_hdl_operations.py`, `metalibm_hw_blocks/lzc.py`, `metalibm_hw_blocks/ml_fp_adder.py`, `metalibm_hw_blocks/ml_fp_mpfma.py` |
| Fuse | `metalibm_core/code_generation/generic_processor.py`, `metalibm_core/core/legalizer.py`, `metalibm_core/core/ml_operations.py`, `metalibm_core/opt/ml_blocks.py`, `metalibm_core/opt/p_function_std.py` |
| Gappa | `metalibm_core/code_generation/code_object.py`, `metalibm_core/code_generation/gappa_code_generator.py`, `metalibm_core/code_generation/generator_utility.py`, `metalibm_core/code_generation/generic_processor.py`, `metalibm_core/core/ml_optimization_engine.py` |
| HW | `metalibm_core/code_generation/code_entity.py`, `metalibm_core/core/ml_hdl_operations.py`, `metalibm_core/opt/ml_blocks.py`, `metalibm_core/opt/p_pipelining.py`, `metalibm_hw_blocks/compound_adder.py`, `metalibm_hw_blocks/dequantizer.py`, `metalibm_hw_blocks/fp_int_conv.py`, `metalibm_hw_blocks/int_div.py`, `metalibm_hw_blocks/lza.py`, `metalibm_hw_blocks/lzc.py`, `metalibm_hw_blocks/mult_array.py`, `metalibm_hw_blocks/rtl_blocks.py` |
| Hyper | `metalibm_functions/erf.py`, `metalibm_functions/ml_cosh.py`, `metalibm_functions/ml_expm1.py`, `metalibm_functions/ml_log1p.py`, `metalibm_functions/ml_sinh.py` |
| Interval | `metalibm_core/core/meta_interval.py` |
| Kulisch | `metalibm_core/core/ml_formats.py`, `metalibm_hw_blocks/ml_fixed_mpfma.py` |
| Legal | `metalibm_core/core/advanced_operations.py`, `metalibm_core/core/legalizer.py`, `metalibm_core/core/ml_formats.py`, `metalibm_core/core/ml_operations.py`, `metalibm_core/opt/p_rtl_legalize.py`, `metalibm_core/opt/p_simplify_rtl.py` |
| Lin | `metalibm_core/code_generation/machine_program_linearizer.py`, `metalibm_core/opt/p_machine_code_gen.py` |
| Llvm | `metalibm_core/core/legalizer.py`, `metalibm_core/targets/common/llvm_ir.py` |
| LlvmGen | `metalibm_core/code_generation/generator_utility.py`, `metalibm_core/code_generation/generators/llvm_ir_code_generator.py` |
| Log | `metalibm_core/core/generic_approximation.py`, `metalibm_core/core/legalizer.py`, `metalibm_core/core/ml_table.py`, `metalibm_functions/generic_log.py` |
| LogFx | `metalibm_core/core/ml_table.py`, `metalibm_functions/ml_log_fixed64.py` |
| LogRep | `metalibm_core/utility/log_report.py` |
| Logic | `metalibm_core/core/ml_operations.py`, `metalibm_core/core/static_vectorizer.py`, `metalibm_core/opt/opt_utils.py`, `metalibm_core/opt/p_logical_simplification.py` |
| Machine | `metalibm_core/opt/p_machine_code_gen.py` |
| Mask | `metalibm_core/core/ml_operations.py`, `metalibm_core/opt/opt_utils.py`, `metalibm_core/opt/p_vector_mask_test_legalization.py`, `metalibm_core/targets/common/vector_backend.py` |
| Mll | `metalibm_core/core/implementpoly.py` |
| Mprec | `metalibm_core/code_generation/generic_processor.py` |
| Names | `metalibm_core/code_generation/code_object.py` |
| Passes | `metalibm_core/core/passes.py`, `metalibm_core/opt/p_rtl_legalize.py` |
| Piecewise | `metalibm_core/core/approximation.py` |
| Poly | `metalibm_core/core/ml_operations.py`, `metalibm_core/core/polynomials.py` |
| Promo | `metalibm_core/opt/p_vector_promotion.py` |
| Range | `metalibm_core/core/ml_operations.py`, `metalibm_core/opt/opt_utils.py` |
| Recip | `metalibm_core/core/ml_hdl_format.py`, `metalibm_hw_blocks/ml_fp_div.py` |
| Rem | `metalibm_core/core/ml_formats.py`, `metalibm_functions/fmod.py`, `metalibm_functions/remquo.py` |
| Rewrite | `metalibm_core/core/ml_operations.py`, `metalibm_core/opt/generic_lowering.py`, `metalibm_core/opt/node_transformation.py`, `metalibm_core/opt/p_basic_legalization.py`, `metalibm_core/opt/p_function_inlining.py`, `metalibm_core/opt/p_simplify_rtl.py`, `metalibm_core/opt/p_vbool_legalization.py` |
| Rng | `metalibm_core/core/ml_entity.py`, `metalibm_core/core/random_gen.py` |
| Rootn | `metalibm_functions/generic_log.py`, `metalibm_functions/rootn.py` |
| RtlSw | `metalibm_core/core/ml_complex_formats.py`, `metalibm_core/core/ml_operations.py`, `metalibm_core/core/ml_table.py`, `metalibm_core/core/passes.py`, `metalibm_core/opt/p_legalize_rtl_to_sw_format.py` |
| Rvv | `metalibm_core/code_generation/abstract_backend.py`, `metalibm_core/code_generation/complex_generator.py`, `metalibm_core/targets/riscv/riscv_vector.py`, `metalibm_core/targets/riscv/rvv_legalization.py`, `metalibm_core/targets/riscv/rvv_table.py` |
| SBool | `metalibm_core/opt/node_transformation.py`, `metalibm_core/opt/p_scalar_vbool_legalization.py` |
| Search | `metalibm_core/core/approximation.py` |
| Share | `metalibm_core/code_generation/generators/c_code_generator.py`, `metalibm_core/opt/p_function_std.py` |
| Simplify | `metalibm_core/core/ml_operations.py`, `metalibm_core/opt/p_numerical_simplification.py` |
| Softmax | `metalibm_functions/softmax.py` |
| Special | `metalibm_core/core/special_values.py` |
| Stack | `metalibm_core/core/attributes.py` |
| Stages | `metalibm_core/opt/p_rtl_pipeline.py` |
| Subnorm | `metalibm_core/opt/ml_blocks.py`, `metalibm_functions/ml_div.py` |
| Table | `metalibm_core/core/array_function.py`, `metalibm_core/core/indexing.py`, `metalibm_core/core/ml_table.py`, `metalibm_core/core/special_values.py`, `metalibm_core/opt/p_table_linearization.py` |
| Tabs | `metalibm_core/opt/opt_utils.py` |
| Tags | `metalibm_core/core/ml_hdl_operations.py`, `metalibm_core/core/ml_operations.py`, `metalibm_core/core/passes.py`, `metalibm_core/opt/p_tag_node.py` |
| Tanh | `metalibm_functions/ml_tanh.py` |
| Trig | `metalibm_core/core/payne_hanek.py`, `metalibm_core/utility/ml_template.py`, `metalibm_functions/ml_sincos.py` |
| Typing | `metalibm_core/core/ml_formats.py`, `metalibm_core/opt/p_function_typing.py` |
| VBool | `metalibm_core/core/ml_formats.py`, `metalibm_core/opt/node_transformation.py`, `metalibm_core/opt/p_vbool_legalization.py` |
| VLog | `metalibm_functions/ml_vectorizable_log.py` |
| Vec | `metalibm_core/core/ml_function.py`, `metalibm_core/core/ml_operations.py`, `metalibm_core/core/static_vectorizer.py` |
| VecTable | `metalibm_core/code_generation/abstract_backend.py`, `metalibm_core/targets/common/vector_backend.py` |
| Vhdl | `metalibm_core/code_generation/vhdl_backend.py`, `metalibm_core/core/ml_entity.py`, `metalibm_hw_blocks/rtl_blocks.py` |
| X86 | `metalibm_core/targets/intel/x86_processor.py` |

## What is not modelled

Inside the files above, functions that no definition cites are not modelled: printing and graph dumps, logging, command-line handling, code objects and text emission other than the allocation of names, the calls to Sollya and gappa.

Files of the library no definition cites (tests and package files left out):

* `metalibm_core/code_generation`: asm_utility.py, code_configuration.py, code_constant.py, code_element.py, code_generator.py, code_utility.py, generator_helper.py, llvm_utils.py, mpfr_backend.py
* `metalibm_core/code_generation/generators`: asm_code_generator.py
* `metalibm_core/core`: machine_operations.py, simple_scalar_function.py, target.py, vla_common.py
* `metalibm_core/opt`: p_evaluate_range.py
* `metalibm_core/targets/intel`: m128_promotion.py, m256_promotion.py, x86_processor_table.py
* `metalibm_core/targets/riscv`: riscv.py
* `metalibm_core/utility`: arg_utils.py, build_utils.py, debug_utils.py, decorator.py, gappa_utils.py, rtl_debug_utils.py, source_info.py, version_info.py
* `metalibm_functions`: example.py, external_bench.py, function_template.py, gamma.py, ml_atan2.py, ml_demo.py, ml_implementpoly.py, ml_sin.py, sleef_bench.py, sleef_types.py, status.py, unit_bench.py
* `metalibm_hw_blocks`: ml_fp_gen_adder.py, ml_hw_adder.py, ml_new_fp_div.py

Of these, the meta-functions (exp, log, sin ...) compute their polynomials and tables with Sollya at generation time: their accuracy proof is gappa's, on numbers that do not exist in the source. The targets are tables of instruction templates; their correctness is that of the processors' manuals.

## Axioms of each theorem

P = `propext`, C = `Classical.choice`, Q = `Quot.sound`. No other axiom is used.

* C01: [PCQ] C01_round_trip, C01_injective, C01_pattern_round_trip, C01_decode_ieee, C01_snan_needs_two_bits
* C02: [PCQ] C02_omega_is_greatest, C02_min_normal, C02_min_subnormal, C02_max_subnormal_bounds_partial, C02_max_subnormal_is_not_subnormal, C02_saturate
* C03: [PCQ] C03_round_trip_nonneg_partial, C03_negative_off_by_modulus, C03_negative_not_round_trip, C03_coding_injective, C03_out_of_range_rejected
* C04: [PCQ] C04_max_is_greatest, C04_min_is_least, C04_saturate, C04_saturate_holds, C04_truncate_wraps, C04_truncate_id
* C05: [PCQ] C05_container_smallest, C05_container_exists_iff
* C06: [PCQ] C06_lt_partial, C06_ge_partial, C06_le_partial, C06_gt_partial, C06_eq_partial, C06_ne_partial, C06_number_vs_infinity_is_reversed, C06_gt_number_vs_special_fails, C06_zero_equality_not_symmetric
* C07: [PCQ] C07_add, C07_add_opposite_zeros, C07_sub, C07_mul_partial, C07_mul_numeric_zero_sign, C07_div_partial, C07_div_number_by_nan_raises, C07_div_zero_by_inf_sign
* C08: [PCQ] C08_union_partial, C08_add, C08_sub, C08_neg, C08_mul, C08_div, C08_lists, C08_list_div, C08_list_neg; [PQ] C08_union_with_empty_raises, C08_inter_partial, C08_contains_number, C08_contains_interval_is_false
* C09: [PCQ] C09_refine, C09_bounds; [PQ] C09_empty_raises
* C10: [PCQ] C10_sound_partial, C10_total_partial, C10_modulo_unsound, C10_raw_exponent_unsound, C10_dot_product_negate_raises
* C11: [PCQ] C11_simplify_partial, C11_comparisons_min_max, C11_subnormal_wrong, C11_minus_infinity_wrong
* C12: [PQ] C12_simplify_partial, C12_or_not_wrong, C12_mixed_and_raises
* C13: [PQ] C13_reduce_uses_each_once, C13_reduce_value, C13_reduce_empty; [PCQ] C13_merge_conditions
* C14: [PQ] C14_power_partial, C14_history_partial, C14_shared_map_wrong, C14_zero_diverges; [PCQ] C14_pow_operator_partial, C14_pow_operator_diverges
* C15: [PQ] C15_horner_nodes, C15_horner
* C16: [PCQ] C16_estrin_partial, C16_estrin_list_partial, C16_two_coefficients_raise; [PQ] C16_empty_raises
* C17: [PCQ] C17_linearization
* C18: [PCQ] C18_compute, C18_first_query_partial, C18_stale_cache; [PQ] C18_special_overwrites
* C19: [PCQ] C19_in_table, C19_offset_interval, C19_partition, C19_lower_half_partial, C19_upper_half_wrong
* C20: [PCQ] C20_free_name; [PQ] C20_history, C20_distinct_partial, C20_undeclared_repeats
* C21: [PCQ] C21_cst_name_partial; [PQ] C21_hangs
* C22: [PQ] C22_restore, C22_current, C22_reject; [P] C22_rejected_unset_poisons
* C23: [PCQ] C23_terminates, C23_schedule, C23_all_run, C23_history; [P] C23_chain_partial; [PQ] C23_batch_drops_results
* C24: [PCQ] C24_worklist
* C25: [PCQ] C25_preserves_partial, C25_rejects, C25_raises
* C26: [PCQ] C26_simplify; [P] C26_duplicates
* C27: [PCQ] C27_dominators_partial, C27_entry_loop_wrong, C27_generated, C27_edges
* C28: [PQ] C28_fallback_partial, C28_duplicate_wrong; [P] C28_removes_jumps
* C29: [PCQ] C29_collapse_partial, C29_removes; [P] C29_chain_wrong, C29_read_between_wrong, C29_written_between_wrong
* C30: [PCQ] C30_test_expansion_partial, C30_subnormal_wrong, C30_comp_sign_partial, C30_comp_sign_wrong; [PQ] C30_unsupported
* C31: [PCQ] C31_exp_extraction, C31_exp_insertion, C31_round_trip, C31_mantissa_extraction; [P] C31_insertion_overflow
* C32: [PCQ] C32_ok, C32_minmax_partial, C32_nan_wrong
* C33: [PCQ] C33_position_partial, C33_bitfield, C33_concat_partial, C33_slices, C33_slices_terminate; [PQ] C33_point_to_msb_wrong, C33_concat_signed_wrong, C33_concat_fraction_wrong; [P] C33_fractional_bit_raises
* C34: [PCQ] C34_sw_clz
* C35: [PCQ] C35_lzc, C35_emulation
* C36: [PCQ] C36_comp32, C36_comp42, C36_reduction_sum, C36_reduction_shrinks, C36_reduce, C36_limit_one_hangs, C36_convert, C36_convert_rows
* C37: [PCQ] C37_product_partial, C37_product, C37_frac_wrong, C37_addition, C37_booth_partial, C37_booth, C37_array
* C38: [PCQ] C38_compound; [P] C38_width_mismatch; [PQ] C38_limit_zero
* C39: [PCQ] C39_div_partial, C39_remainder_partial; [P] C39_narrow_divisor_wrong, C39_narrow_result_wrong
* C40: [PCQ] C40_trunc, C40_special; [PQ] C40_sign_lost
* C41: [PCQ] C41_predicates
* C42: [PCQ] C42_pos, C42_neg, C42_neg_abs_partial; [PQ] C42_neg_power_wrong
* C43: [PCQ] C43_pipeline_partial, C43_accepts, C43_refuses; [PQ] C43_unbalanced_delay_fails, C43_unbalanced_delay_wrong, C43_register; [none] C43_async_single_process_wrong, C43_recirculate_needs_reset
* C44: [PCQ] C44_mul_no_overflow, C44_add_no_overflow_partial, C44_add_mixed_overflow, C44_sub_no_overflow_partial, C44_sub_signed_overflow, C44_sub_unsigned_signed_overflow, C44_neg_no_overflow_partial, C44_neg_overflow, C44_clz_fits, C44_constant_fits, C44_constant_found, C44_fit_test_sound; [PQ] C44_concat_bits, C44_subsignal_bits
* C45: [PCQ] C45_largest_contains, C45_solve_equal_contains_partial, C45_failure_is_forgotten
* C46: [PCQ] C46_twosum, C46_fasttwosum, C46_fasttwosum_needs_order, C46_fasttwosum_unit
* C47: [PCQ] C47_mul211, C47_add211_partial, C47_add_cancellation_wrong, C47_local111, C47_add111_partial, C47_mul111_partial, C47_mul111_wrong, C47_mul222_wrong, C47_add212, C47_add221, C47_add222_partial, C47_add222_cancellation_wrong, C47_mul212, C47_mul222_local, C47_add222_limbs, C47_add221_fast, C47_mul221, C47_mul221_global_partial
* C48: [PCQ] C48_cmp2, C48_cmp3_const_partial, C48_cmp3_variables_partial, C48_cmp3_mixed_wrong, C48_max, C48_min, C48_neg, C48_abs
* C49: [PCQ] C49_constant_sum, C49_constant_residue, C49_constant_not_normalized, C49_widen, C49_narrow
* C50: [PCQ] C50_lane_partial, C50_vector_function_partial; [PQ] C50_bare_unlikely_wrong, C50_local_condition_wrong, C50_switch_wrong, C50_sub_vector_wrong
* C51: [PCQ] C51_remquo_exact, C51_watchdog_range
* C52: [PCQ] C52_increment, C52_dequantize; [P] C52_subnormal_wrong
* C53: [PCQ] C53_evaluate_cst, C53_evaluate_cst_total, C53_evaluate_graph, C53_evaluate_graph_total
* C54: [PCQ] C54_extract_partial, C54_free, C54_shared_repeats, C54_assignment_lost
* C55: [PCQ] C55_category, C55_zero_weight_wrong, C55_fixed_partial, C55_fixed_signed, C55_fixed_extremes, C55_fixed_zero_wrong, C55_fixed_near_zero_wrong, C55_int_partial, C55_int_wrong, C55_raw, C55_fp, C55_log_range, C55_log_partial, C55_log_endpoints_wrong, C55_log_subnormal_wrong, C55_uniform_partial, C55_uniform_wrong, C55_mp_partial, C55_mp_wrong
* C56: [PCQ] C56_invsqrt_scale, C56_invsqrt_seed, C56_reciprocal_seed; [P] C56_reciprocal_flush
* C57: [PCQ] C57_inline_partial, C57_early_return_wrong
* C58: [PQ] C58_rows; [PCQ] C58_partition, C58_expected
* C59: [PCQ] C59_lower, C59_lower_complete_partial, C59_lower_chain_wrong, C59_transform, C59_transform_complete; [PQ] C59_execute_none_wrong
* C60: [PCQ] C60_next_partial, C60_previous_partial, C60_next_of_power_is_stuck, C60_next_of_subnormal_is_stuck, C60_previous_of_min_normal_is_stuck
* C61: [PCQ] C61_mantissa_index, C61_fp_index, C61_mantissa_partition, C61_fp_partition
* C62: [PCQ] C62_immediate_dominator
* C63: [PCQ] C63_frontiers, C63_phi_placement, C63_phi_terminates
* C64: [PCQ] C64_split, C64_mul211_nofma_partial, C64_mul211_nofma_unbounded, C64_mul211_partial, C64_mul211_unbounded, C64_mul211_underflow_wrong, C64_normalize33, C64_add321, C64_add321v2_wrong, C64_fast_selected, C64_normalize23_partial
* C65: [PCQ] C65_fma2111_partial, C65_fma2212_wrong, C65_fma2211_partial, C65_fma2122_partial
* C66: [PCQ] C66_remquo_partial, C66_half_wrong
* C67: [PCQ] C67_add333_partial, C67_mul322, C67_mul321_partial, C67_mul332_partial, C67_mul313, C67_mul333, C67_add332_partial, C67_add322, C67_add331_partial, C67_add333_wrong, C67_add333_cancellation_wrong, C67_add332_cancellation_wrong, C67_add322_factor_wrong, C67_add321_factor_wrong, C67_add322_binary32_wrong, C67_add331_wrong, C67_add331_factor_wrong, C67_mul322_binary32_wrong, C67_mul321_wrong, C67_mul332_wrong
* C68: [PCQ] C68_conv_partial, C68_conv_negative_wrong, C68_add_partial, C68_add_wrong, C68_sub_partial, C68_sub_wrong, C68_mul_partial, C68_mul_wrong, C68_cmp_partial, C68_from_fp_partial, C68_from_fp_wrong, C68_to_fp; [P] C68_cmp_wrong
* C69: [PCQ] C69_seed_partial, C69_seed_wrong
* C70: [PCQ] C70_cr_partial, C70_cr_negative_zero_wrong, C70_cr_special, C70_faithful, C70_interval_special, C70_absolute_partial, C70_relative_partial, C70_absolute_infinite_wrong, C70_overflow, C70_nan, C70_absolute_accept_wrong, C70_absolute_reject_wrong
* C71: [PCQ] C71_vector; [PQ] C71_scalar_partial, C71_break_error_wrong
* C72: [PCQ] C72_scalar_invalid, C72_scalar_partial, C72_scalar_absolute, C72_infinite_wrong, C72_index_wrong, C72_vector_partial, C72_vector_nan_wrong, C72_vector_print_wrong, C72_faithful, C72_degraded_wrong
* C73: [PCQ] C73_partial, C73_carry_wrong, C73_far_wrong, C73_zero_wrong, C73_cancel_wrong, C73_sub_wrong
* C74: [PCQ] C74_partial, C74_half_wrong, C74_carry_wrong, C74_tie_wrong, C74_mixed_wrong
* C75: [PCQ] C75_function_computes_description_partial, C75_pure_function_computes_description, C75_reuse_after_loop_wrong, C75_stale_value_wrong, C75_loop_condition_wrong, C75_branch_local_wrong, C75_argument_name_wrong
* C76: [PCQ] C76_each_operation_once
* C77: [PCQ] C77_exp_faithful, C77_exp_poly_faithful, C77_exp_special, C77_exp_underflow_wrong, C77_exp_goal_wrong
* C78: [PCQ] C78_div_faithful_partial, C78_div_special_partial, C78_div_zero_sign_wrong, C78_div_overflow_wrong, C78_div_rounding_wrong
* C79: [PCQ] C79_sqrt_correctly_rounded_partial, C79_sqrt_faithful_partial, C79_rsqrt_error_partial, C79_sqrt_special_partial, C79_sqrt_minus_zero_wrong, C79_rsqrt_special_partial, C79_rsqrt_minus_zero_wrong, C79_sqrt_subnormal_wrong, C79_rsqrt_subnormal_wrong, C79_sqrt_rounding_wrong, C79_rsqrt_faithful_wrong
* C80: [PCQ] C80_remquo_exact_partial, C80_remquo_zero_sign_partial, C80_remquo_zero_sign_wrong, C80_remquo_special, C80_remquo_half_wrong
* C81: [PCQ] C81_fmod_exact_partial, C81_fmod_terminates_partial, C81_fmod_special_partial, C81_fmod_inf_wrong, C81_fmod_zero_sign_wrong, C81_fmod_overflow_wrong, C81_fmod_sign_wrong, C81_fmod_underflow_wrong
* C82: [PCQ] C82_sincos_half_turn_wrong, C82_sincos_table_wrong, C82_sincos_overflow_wrong, C82_sincos_overflow_binade_wrong, C82_sincos_partial, C82_payne_hanek_partial, C82_payne_hanek_quarter_partial
* C83: [PCQ] C83_sincos_std_partial, C83_sincos_large_partial, C83_sincos_negative_wrong, C83_sincos_large_wrong, C83_sincos_std_wrong
* C84: [P] C84_fuse_exact, C84_supported_partial, C84_integer_wrong, C84_dot_wrong; [PCQ] C84_fuse_rounded, C84_fused_operation, C84_fuse_accuracy, C84_split_wrong
* C85: [PCQ] C85_comparison_partial, C85_unsigned_wrong, C85_select_partial, C85_select_nan_wrong, C85_mask_test, C85_mask_test_wrong; [P] C85_select_lowered, C85_select_not_wrong, C85_select_mask_wrong
* C86: [PCQ] C86_constant_partial, C86_constant_carry_wrong, C86_constant_loop_wrong, C86_int64_conversion, C86_int64_conversion_exact, C86_nearest_integer, C86_float_conversion_partial, C86_float_conversion_wrong, C86_mantissa_partial, C86_mantissa_wrong, C86_table_index
* C87: [PCQ] C87_integer_format, C87_integer_format_wrong, C87_merge_float_partial, C87_merge_mixed_wrong, C87_merge_int_partial, C87_merge_int_wrong, C87_operands_fit, C87_shared_constant_wrong, C87_comparison_constant_wrong; [PQ] C87_merge_small_wrong, C87_all_typed
* C88: [PCQ] C88_exp2_error_partial, C88_exp2_special, C88_exp2_nan, C88_exp2_table_wrong, C88_exp2_least_wrong, C88_exp2_integer, C88_exp2_top_wrong
* C89: [PCQ] C89_pow_special_partial, C89_pow_zero_inf_wrong, C89_pow_negative_odd_wrong, C89_pow_sign_wrong, C89_pow_invalid_wrong, C89_pow_one_nan_wrong, C89_pow_two_integer_partial, C89_pow_two_fraction_wrong, C89_pow_two_wrap_wrong, C89_pow_nan_base_wrong, C89_pow_binade_partial
* C90: [PCQ] C90_linearize_partial, C90_two_returns_wrong; [PQ] C90_inputs, C90_shared_blocks_wrong, C90_stale_wrong, C90_constant_return_wrong, C90_unused_argument_wrong; [P] C90_phi_wrong
* C91: [PCQ] C91_reported_is_a_path, C91_reported_local, C91_flat_partial, C91_signal_wrong, C91_comparison_wrong, C91_shift_wrong
* C92: [PCQ] C92_atan_partial, C92_atan_minus_zero_wrong, C92_single_partial, C92_single_wrong
* C93: [PCQ] C93_atan2_partial, C93_plus_zero_wrong, C93_minus_zero_wrong, C93_invalid_wrong
* C94: [PCQ] C94_tanh_partial, C94_tanh_odd, C94_tanh_nan_wrong, C94_tanh_minus_zero_wrong
* C95: [PCQ] C95_search_partial, C95_result_wrong, C95_endless_wrong, C95_ends, C95_mirror_partial, C95_mirror_endless_wrong
* C96: [PCQ] C96_cbrt_partial, C96_negative_wrong, C96_minus_zero_wrong, C96_subnormal_wrong, C96_infinity_wrong
* C97: [PQ] C97_lookup; [PCQ] C97_supported_iff; [P] C97_language_wrong
* C98: [PCQ] C98_hierarchy, C98_single_order, C98_order_wrong
* C99: [PCQ] C99_positive_partial, C99_negative_wrong, C99_small_low_wrong, C99_normal_wrong
* C100: [PCQ] C100_rounds_partial, C100_tie_wrong, C100_undefined_wrong
* C101: [PCQ] C101_preserves_partial, C101_factors; [PQ] C101_guard_wrong, C101_return_wrong
* C102: [PCQ] C102_error, C102_reported, C102_output_partial, C102_output_wrong
* C103: [PQ] C103_array, C103_vla_wide_wrong, C103_vla_length_wrong; [PCQ] C103_array_vectorized_partial, C103_overlap_wrong, C103_vla_partial, C103_vla_mask_wrong
* C104: [PCQ] C104_loops, C104_error_partial, C104_error_exp_partial, C104_overflow_wrong, C104_overflow_binary32_wrong, C104_underflow_wrong
* C105: [PCQ] C105_step, C105_dot_partial, C105_capacity_partial, C105_extra_digit_wrong, C105_subnormal_wrong, C105_sign_magnitude_step, C105_sign_magnitude_partial, C105_zero_sign_wrong
* C106: [PCQ] C106_value, C106_extra_term_wrong, C106_value_partial, C106_error_partial, C106_fp_partial, C106_generated_wrong, C106_max_error, C106_load_tables, C106_load_error_wrong, C106_load_error_partial
* C107: [PCQ] C107_round_trip, C107_round_trip_list, C107_single, C107_tag_wrong; [P] C107_from_objects_wrong
* C108: [PCQ] C108_widen, C108_narrow, C108_narrow_infinity, C108_narrow_nan_wrong, C108_narrow_nan_partial, C108_constant_partial, C108_constant_wrong, C108_round_partial, C108_round_wrong; [PQ] C108_narrow_widen
* C109: [PCQ] C109_special, C109_binary32_partial, C109_wide_partial, C109_binary64_wrong, C109_one, C109_above_one, C109_near_one_wrong
* C110: [PCQ] C110_error_partial, C110_special_partial, C110_minus_zero_wrong, C110_first, C110_reciprocal
* C111: [PCQ] C111_cosh_even, C111_sinh_odd, C111_erf_odd, C111_cosh_special, C111_sinh_special_partial, C111_sinh_zero_wrong, C111_sinh_least_wrong, C111_erf_special_partial, C111_erf_nan_wrong, C111_erf_zero_wrong, C111_expm1_special_partial, C111_expm1_zero_wrong, C111_log1p_special_partial, C111_log1p_subnormal_wrong, C111_log1p_pole_wrong
* C112: [PCQ] C112_allocation_partial, C112_end_to_end_partial, C112_clobber_wrong; [PQ] C112_argument_wrong, C112_constant_branch_wrong
* C113: [PCQ] C113_instructions_partial, C113_negation_wrong, C113_vector_negation_wrong, C113_nearest_wrong, C113_nearest_refused_wrong, C113_predicates_wrong, C113_comparison_format_wrong, C113_mask_wrong, C113_fused_partial, C113_fused_wrong; [P] C113_supported
* C114: [PCQ] C114_text_partial, C114_single_assignment, C114_undefined_wrong, C114_siblings_wrong, C114_constant_wrong
* C115: [PCQ] C115_first_check, C115_first_check_ends, C115_second_check_wrong, C115_support_partial, C115_support_ends, C115_language_wrong; [PQ] C115_cycle_wrong
* C116: [PCQ] C116_addsub_partial, C116_add_mixed_wrong, C116_add_unsigned_wrong, C116_mul_partial, C116_mul_wrong, C116_conversion, C116_negation, C116_comparison, C116_equal_partial, C116_equal_wrong, C116_shift_right_partial, C116_shift_arith_partial, C116_shift_left, C116_shift_right_wrong, C116_shift_arith_wrong, C116_shift_constant_partial, C116_shift_constant_wrong
* C117: [PCQ] C117_bound_partial, C117_division_wrong, C117_negation_wrong, C117_conversion_wrong, C117_same_tag_wrong, C117_tag_wrong, C117_quantized_wrong, C117_first_version_wrong, C117_cases_partial, C117_cases_wrong, C117_interval_partial, C117_interval_wrong
* C118: [PCQ] C118_constant, C118_constant_format_partial, C118_constant_format_wrong, C118_binary32_wrong, C118_variable, C118_horner_partial, C118_target_wrong, C118_cancellation_wrong, C118_missing_wrong, C118_budget_wrong, C118_descriptor_wrong; [PQ] C118_format, C118_choice_partial
* C119: [PCQ] C119_accuracy_partial, C119_negative_value_wrong, C119_negative_wrong, C119_small_interval_wrong, C119_tiny_wrong
* C120: [PCQ] C120_lanes_partial, C120_not_assembled_wrong, C120_select_partial, C120_expand, C120_test_partial, C120_any_difference_wrong; [PQ] C120_opencl, C120_not_equal_wrong, C120_lib_test; [P] C120_lib_test_wrong
* C121: [PQ] C121_lanes_partial, C121_shift_wrong, C121_cast_wrong, C121_convert_wrong; [P] C121_three_wrong, C121_exponent_wrong
* C122: [PCQ] C122_faithful_partial, C122_nearest_partial, C122_nearest_wrong, C122_large_wrong, C122_small_wrong, C122_nan_wrong, C122_special_wrong, C122_double_wrong; [PQ] C122_narrow_wrong
* C123: [PCQ] C123_split, C123_split_single, C123_sum, C123_fastsum, C123_fastsum_wrong, C123_product_partial, C123_product_wrong, C123_add, C123_addpairs, C123_addition, C123_exact, C123_fmapair_partial, C123_fma_partial, C123_fma_wrong, C123_split_finite_partial, C123_product_finite_partial, C123_overflow_wrong
* C124: [PQ] C124_compiles, C124_function_wrong; [PCQ] C124_lanes_partial, C124_rounding_partial, C124_floor_wrong, C124_conversion_wrong, C124_large_wrong, C124_negation, C124_index, C124_index_wrong, C124_seed
* C125: [PCQ] C125_value, C125_exact_partial, C125_clamp_wrong, C125_legalized_wrong
* C126: [PCQ] C126_expression, C126_statement
* C127: [PCQ] C127_reports, C127_unknown; [PQ] C127_unique
* C128: [PCQ] C128_uniform_partial, C128_mixed_wrong; [P] C128_idempotent, C128_test_wrong; [PQ] C128_width_wrong, C128_assembling_wrong
* C129: [PCQ] C129_generated_code, C129_value_unique, C129_variables, C129_skipped_variable_wrong, C129_atan2_partial, C129_atan2_wrong
* C130: [PQ] C130_tagged, C130_debug; [PCQ] C130_distinct_partial, C130_unique, C130_same_name_wrong, C130_user_tag_wrong
* C131: [PCQ] C131_reduction, C131_table_length, C131_one_step, C131_parameters, C131_datapath_partial, C131_datapath_parameters, C131_cut_wrong, C131_tables_wrong, C131_exponent_wrong, C131_special_partial
* C132: [PCQ] C132_normalization, C132_reduction, C132_sum_partial, C132_vector_binary64_wrong, C132_table_loads, C132_zero_wrong, C132_fine_table_wrong
* C133: [PCQ] C133_format, C133_container, C133_wide_wrong, C133_pass_partial, C133_again, C133_scheme_partial, C133_scheme_wrong, C133_kept_wrong, C133_copy_wrong; [P] C133_format_other
* C134: [PCQ] C134_call_partial, C134_call_site_partial, C134_separate, C134_names_partial, C134_externalizer_wrong; [P] C134_no_format; [PQ] C134_same_name_wrong, C134_return_partial, C134_no_return_wrong, C134_table_argument_wrong, C134_mutable_table_wrong
* C135: [PCQ] C135_error_stops, C135_shown, C135_errors_shown, C135_other_levels_partial, C135_braces_wrong, C135_sub_level_wrong; [PQ] C135_text; [P] C135_enabled
* C136: [PCQ] C136_stages; [PQ] C136_all_defined, C136_unshared_partial, C136_shared_wrong, C136_execute_wrong, C136_execute_partial
* C137: [PQ] C137_applied, C137_growing, C137_added_wrong, C137_merge_partial, C137_by_name, C137_merge_names, C137_file, C137_main; [P] C137_merge_same_wrong, C137_merge_names_wrong
* C138: [PCQ] C138_stage, C138_single; [PQ] C138_stage_kept, C138_stage_wrong, C138_no_stage_wrong, C138_ports, C138_names_partial, C138_same_name_wrong, C138_reserved_partial, C138_reserved_wrong
* C139: [PQ] C139_ids, C139_wiring_partial, C139_separate, C139_unknown, C139_declared_partial, C139_shared_wrong, C139_same_name_wrong, C139_missing_wrong
* C140: [P] C140_same, C140_left; [PCQ] C140_typed, C140_flags; [PQ] C140_removed; [none] C140_untyped_wrong
* C141: [PQ] C141_same, C141_width, C141_chosen, C141_succeeds_partial, C141_root_partial, C141_execute_partial; [P] C141_root_wrong, C141_execute_wrong, C141_width_wrong, C141_mixed_wrong
* C142: [PCQ] C142_tables, C142_operands
* C143: [PCQ] C143_outside_partial, C143_domain_wrong, C143_block_partial, C143_block_wrong
* C144: [PCQ] C144_words, C144_history_partial, C144_sign_wrong, C144_wide_wrong, C144_digits_wrong
