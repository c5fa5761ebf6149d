{"id": "C01", "title": "Floating-point bit coding round trip", "statement": "For every IEEE-like format, encoding a finite non-zero value of the format to its integer bit pattern and decoding the pattern gives the value back; distinct values have distinct patterns; the pattern fits in the format's bit size.", "quantifier": "all exponent sizes >= 2, all field sizes >= 1, all finite non-zero representable values, both signs, normal and subnormal", "why_tests_cant": "2^64 bit patterns per format and an unbounded family of custom formats cannot be enumerated", "anchors": ["metalibm_core/core/ml_formats.py:ML_Std_FP_Format.get_integer_coding", "metalibm_core/core/ml_formats.py:ML_Std_FP_Format.get_value_from_integer_coding"]}
{"id": "C02", "title": "Floating-point format bounds", "statement": "The bounds a format reports are true: every finite value of the format has magnitude at most get_omega() and omega is itself a value of the format; every subnormal value is at most get_max_subnormal_value(), which is itself a subnormal value; the smallest normal is get_min_normal_value().", "quantifier": "all exponent sizes >= 2, field sizes >= 1 and all values of the format", "why_tests_cant": "the claim is over all values of all formats", "anchors": ["metalibm_core/core/ml_formats.py:ML_Std_FP_Format.get_omega", "metalibm_core/core/ml_formats.py:ML_Std_FP_Format.get_max_subnormal_value", "metalibm_core/core/ml_formats.py:ML_Std_FP_Format.get_min_normal_value"]}
{"id": "C03", "title": "Fixed-point bit coding round trip", "statement": "Encoding an in-range fixed-point value to its integer coding and decoding the coding returns the value, for signed and unsigned formats.", "quantifier": "all integer/fraction sizes, both signednesses, all values on the format's grid", "why_tests_cant": "the space of formats and values is unbounded", "anchors": ["metalibm_core/core/ml_formats.py:ML_Base_FixedPoint_Format.get_integer_coding", "metalibm_core/core/ml_formats.py:ML_Base_FixedPoint_Format.get_value_from_integer_coding"]}
{"id": "C04", "title": "Fixed-point range, truncation and saturation", "statement": "get_min_value/get_max_value are exactly the extreme values of a fixed-point format; saturate() always lands in the range, is the identity on in-range values and returns the nearest bound otherwise; truncate() drops exactly the bits below the last fractional digit.", "quantifier": "all integer/fraction sizes, both signednesses, all rational inputs", "why_tests_cant": "unbounded numeric domain", "anchors": ["metalibm_core/core/ml_formats.py:ML_Base_FixedPoint_Format.get_max_value", "metalibm_core/core/ml_formats.py:ML_Base_FixedPoint_Format.saturate", "metalibm_core/core/ml_formats.py:ML_Base_FixedPoint_Format.truncate"]}
{"id": "C05", "title": "Software container of a fixed-point format", "statement": "The C integer type chosen to hold a fixed-point format is the smallest of the available sizes that is at least the format's bit size, and formats wider than every available size are rejected.", "quantifier": "all integer and fraction sizes", "why_tests_cant": "unbounded family of formats", "anchors": ["metalibm_core/core/ml_formats.py:ML_Custom_FixedPoint_Format", "metalibm_core/core/ml_formats.py:ML_Base_SW_FixedPoint_Format"]}
{"id": "C06", "title": "Comparison of special values", "statement": "Comparing NaN, infinities, signed zeros and ordinary numbers through ==, !=, <, <=, >, >= gives the IEEE-754 relation for every pair.", "quantifier": "all pairs of special and numeric values of a format, all six comparisons", "why_tests_cant": "numeric values range over an infinite set; every pairing of classes must be right", "anchors": ["metalibm_core/core/special_values.py:special_value_less_than", "metalibm_core/core/special_values.py:NumericValue", "metalibm_core/core/special_values.py:FP_SpecialValue"]}
{"id": "C07", "title": "Arithmetic on special values", "statement": "Addition, subtraction, multiplication and division mixing special values and numbers give the IEEE-754 result class: NaN is absorbing, inf-inf, 0*inf, 0/0 and inf/inf are NaN, and signs combine properly.", "quantifier": "all pairs of operands, special or numeric", "why_tests_cant": "infinite numeric operand set", "anchors": ["metalibm_core/core/special_values.py:special_value_add", "metalibm_core/core/special_values.py:special_value_mul", "metalibm_core/core/special_values.py:special_value_div"]}
{"id": "C08", "title": "Interval arithmetic encloses results", "statement": "For MetaInterval and MetaIntervalList +, -, *, /, negation, union and intersection: the result contains op(x,y) for every x and y of the operand intervals, and nothing else (for union every member of either, for intersection exactly the common members).", "quantifier": "all intervals and all points in them", "why_tests_cant": "real-valued points in arbitrary intervals", "anchors": ["metalibm_core/core/meta_interval.py:MetaInterval"]}
{"id": "C09", "title": "Interval-list refinement", "statement": "Refining a list of intervals keeps exactly the same set of covered points and returns sorted pairwise-disjoint intervals.", "quantifier": "all finite non-empty lists of intervals in any order with any overlaps", "why_tests_cant": "unbounded list lengths, orders and overlap patterns", "anchors": ["metalibm_core/core/meta_interval.py:MetaIntervalList", "metalibm_core/core/meta_interval.py:refine_interval_list"]}
{"id": "C10", "title": "Range evaluation of operation graphs is sound", "statement": "If every leaf of an operation graph takes a value in its declared interval then the value of every node lies in the interval the range evaluator reports for it; when the evaluator reports nothing no claim is made.", "quantifier": "all operation graphs and all leaf valuations", "why_tests_cant": "graphs of unbounded depth; all real valuations", "anchors": ["metalibm_core/opt/opt_utils.py:evaluate_range", "metalibm_core/core/ml_operations.py:range_function"]}
{"id": "C11", "title": "Interval-based simplification preserves values", "statement": "Replacing comparisons, tests, min and max by constants or by one operand on the basis of intervals never changes the value of the expression for any input inside the declared intervals.", "quantifier": "all comparison specifiers, tests, intervals, and operand values", "why_tests_cant": "real-valued operands in arbitrary intervals", "anchors": ["metalibm_core/opt/p_numerical_simplification.py"]}
{"id": "C12", "title": "Logical simplification preserves truth value", "statement": "The boolean expression returned by the logical simplification pass has the same truth value as the input expression under every assignment, and simplification does not crash.", "quantifier": "all boolean expressions of any depth and all assignments", "why_tests_cant": "unbounded expression depth", "anchors": ["metalibm_core/opt/p_logical_simplification.py"]}
{"id": "C13", "title": "n-ary reduction equals the mathematical reduction", "statement": "Reducing a list of operands with logical_or_reduce/logical_and_reduce, and summing with an n-ary addition, gives the disjunction/conjunction/sum of all operands, each used exactly once.", "quantifier": "all non-empty operand lists", "why_tests_cant": "unbounded operand count", "anchors": ["metalibm_core/opt/opt_utils.py:logical_reduce", "metalibm_core/core/ml_operations.py:AdditionN", "metalibm_core/core/static_vectorizer.py:and_merge_conditions"]}
{"id": "C14", "title": "Power generation computes the power", "statement": "generate_power(x, n) builds a graph whose value is x^n, with or without sharing of sub-powers through a power map, for each requested variable.", "quantifier": "all variables, all n >= 1, all call histories sharing a power map", "why_tests_cant": "unbounded exponents; correctness depends on the history of earlier calls through the shared map", "anchors": ["metalibm_core/core/polynomials.py:generate_power", "metalibm_core/core/ml_operations.py:AbstractOperation.__pow__"]}
{"id": "C15", "title": "Horner scheme evaluates the polynomial", "statement": "The operation graph generated by the Horner scheme has, in exact arithmetic, the value of the polynomial at the variable.", "quantifier": "all sparse polynomials, any degree, all evaluation points", "why_tests_cant": "unbounded degree, all points", "anchors": ["metalibm_core/core/polynomials.py:PolynomialSchemeEvaluator.generate_horner_scheme2"]}
{"id": "C16", "title": "Estrin scheme evaluates the polynomial", "statement": "The operation graph generated by the Estrin scheme has, in exact arithmetic, the value of the polynomial at the variable, and generation terminates for every polynomial object.", "quantifier": "all polynomials, any degree and sparsity, all points", "why_tests_cant": "unbounded degree, all points", "anchors": ["metalibm_core/core/polynomials.py:PolynomialSchemeEvaluator.generate_estrin_scheme", "metalibm_core/core/polynomials.py:Polynomial.sub_poly"]}
{"id": "C17", "title": "Table linearization preserves loads", "statement": "Splitting a two-dimensional table into one-dimensional tables and rewriting constant-column loads gives the same loaded value for every index.", "quantifier": "all table dimensions, contents, row indices and columns", "why_tests_cant": "unbounded table sizes", "anchors": ["metalibm_core/opt/p_table_linearization.py:split2DTable", "metalibm_core/opt/p_table_linearization.py:TableLinearizer.expand_node"]}
{"id": "C18", "title": "Table interval covers the content", "statement": "The interval reported for a table contains every numeric entry of the table, whatever sequence of writes and interval queries was made.", "quantifier": "all tables and all histories of writes and queries", "why_tests_cant": "history-dependent caching", "anchors": ["metalibm_core/core/ml_table.py:ML_NewTable.get_interval", "metalibm_core/core/ml_table.py:ML_NewTable.compute_interval"]}
{"id": "C19", "title": "Uniform table index stays in range", "statement": "The table index computed for an input inside the indexed interval is within the table, and the sub-interval with that index contains the input. The reported sub-intervals are consecutive: they cover the indexed interval without gap or overlap.", "quantifier": "all intervals, all split numbers, all inputs in the interval", "why_tests_cant": "continuum of inputs", "anchors": ["metalibm_core/core/indexing.py:SubUniformIntervalIndexing"]}
{"id": "C20", "title": "Generated identifiers never collide", "statement": "Every name returned by the free-name allocator is new: it is declared neither in any symbol table of the scope nor in any enclosing scope, hence after any sequence of requests all allocated names are pairwise distinct.", "quantifier": "all histories of name requests and declarations over nested scopes", "why_tests_cant": "history-dependent counters", "anchors": ["metalibm_core/code_generation/code_object.py:SymbolTable.get_free_name", "metalibm_core/code_generation/code_object.py:MultiSymbolTable.get_free_name"]}
{"id": "C21", "title": "Constant name allocation terminates", "statement": "Asking for a fresh constant name always terminates and returns an unused name.", "quantifier": "all symbol-table states", "why_tests_cant": "a hang for one state among unboundedly many", "anchors": ["metalibm_core/code_generation/code_object.py:MultiSymbolTable.get_free_cst_name", "metalibm_core/code_generation/code_object.py:CodeObject.declare_cst"]}
{"id": "C22", "title": "Default-precision stack discipline", "statement": "Setting then unsetting default attributes restores the previous default for every nesting of set/unset, and an unset without matching set is rejected.", "quantifier": "all sequences of set/unset operations", "why_tests_cant": "unbounded nesting history", "anchors": ["metalibm_core/core/attributes.py:Attributes"]}
{"id": "C23", "title": "Pass schedule order and chaining", "statement": "Passes scheduled in a slot run after all their declared dependencies, each exactly once, and each pass receives the result of the previous one.", "quantifier": "all pass lists and dependency relations", "why_tests_cant": "all schedules", "anchors": ["metalibm_core/core/passes.py:PassScheduler"]}
{"id": "C24", "title": "Worklist graph passes visit operands first", "statement": "A linearized graph pass applies its transformation to every node reachable from the root exactly once and only after all the node's operands were processed.", "quantifier": "all acyclic operation graphs, any sharing", "why_tests_cant": "unbounded graphs", "anchors": ["metalibm_core/core/passes.py:LinearizedGraphOptimization.execute"]}
{"id": "C25", "title": "Basic-block generation preserves execution", "statement": "Translating a structured program (sequences, if/else, loops, returns) to basic blocks with branches preserves its observable behaviour: same final state and same returned value.", "quantifier": "all programs, any nesting, all initial states, all terminating executions", "why_tests_cant": "unbounded programs and loop iterations", "anchors": ["metalibm_core/opt/p_gen_bb.py:BasicBlockTranslator.transform_cb_to_bb", "metalibm_core/opt/p_gen_bb.py:transform_loop_to_bb"]}
{"id": "C26", "title": "Basic-block simplification keeps the reachable program", "statement": "Basic-block simplification terminates, keeps the entry first, keeps exactly the blocks reachable from the entry, and preserves every execution.", "quantifier": "all control-flow graphs", "why_tests_cant": "unbounded graphs", "anchors": ["metalibm_core/opt/p_gen_bb.py:Pass_BBSimplification"]}
{"id": "C27", "title": "Dominator computation is correct", "statement": "The dominator map computed for a control-flow graph relates block D to block B exactly when every path from entry to B passes through D.", "quantifier": "all control-flow graphs and all paths", "why_tests_cant": "unbounded graphs and infinite sets of paths", "anchors": ["metalibm_core/opt/p_gen_bb.py:BasicBlockGraph"]}
{"id": "C28", "title": "Dropping fall-through jumps preserves execution", "statement": "Removing a trailing jump to the next block in layout order leaves every execution unchanged.", "quantifier": "all block lists and all executions", "why_tests_cant": "unbounded block lists and executions", "anchors": ["metalibm_core/opt/p_machine_code_gen.py:Pass_SimplifyBBFallback"]}
{"id": "C29", "title": "Register-copy collapsing preserves execution", "statement": "Rewriting an instruction to write directly to the destination of a following register copy, and removing the copy, leaves the values observed after the block unchanged.", "quantifier": "all straight-line register programs and all initial register states", "why_tests_cant": "all programs", "anchors": ["metalibm_core/opt/p_machine_code_gen.py:Pass_CollapseRegisterCopy"]}
{"id": "C30", "title": "Bit-level floating-point tests decide the IEEE class", "statement": "The integer expansions of IsNaN, IsInfty, IsInfOrNaN, IsZero, IsSubnormal, IsSignalingNaN, IsQuietNaN and sign comparison answer, for every bit pattern, the IEEE-754 class question they are named after.", "quantifier": "all exponent/field sizes and all bit patterns", "why_tests_cant": "2^64 patterns per format, unbounded formats", "anchors": ["metalibm_core/core/legalizer.py:generate_test_expansion", "metalibm_core/core/legalizer.py:legalize_comp_sign"]}
{"id": "C31", "title": "Exponent extraction and insertion", "statement": "Exponent extraction of a normal number returns floor(log2 |x|); exponent insertion of e returns 2^e; mantissa extraction returns x/2^e; extraction after insertion is the identity.", "quantifier": "all formats, all normal numbers, all in-range exponents", "why_tests_cant": "unbounded formats, 2^64 patterns", "anchors": ["metalibm_core/core/legalizer.py:generate_exp_extraction", "metalibm_core/core/legalizer.py:generate_exp_insertion", "metalibm_core/core/legalizer.py:generate_field_extraction"]}
{"id": "C32", "title": "Min/max lowering", "statement": "The select-based lowering of Min and Max returns the minimum/maximum of its operands.", "quantifier": "all ordered operand values", "why_tests_cant": "infinite domains", "anchors": ["metalibm_core/core/legalizer.py:minmax_legalizer_wrapper"]}
{"id": "C33", "title": "Fixed-point positions and bit-field extraction", "statement": "FixedPointPosition resolves to the bit index it denotes; the software lowering of bit-slice extraction, bit selection and concatenation returns the requested bits and composition of slices selects the same bits.", "quantifier": "all widths, positions and bit patterns", "why_tests_cant": "unbounded widths", "anchors": ["metalibm_core/core/legalizer.py:fixed_point_position_legalizer", "metalibm_core/opt/p_rtl_legalize.py:generate_bitfield_extraction", "metalibm_core/opt/p_rtl_legalize.py:sw_legalize_concatenation", "metalibm_core/opt/p_simplify_rtl.py"]}
{"id": "C34", "title": "Software count-leading-zeros", "statement": "The generated 32-bit count-leading-zeros sequence returns the number of leading zeros for every 32-bit input.", "quantifier": "all 2^32 inputs", "why_tests_cant": "too many inputs to sample meaningfully", "anchors": ["metalibm_core/opt/ml_blocks.py:generate_count_leading_zeros"]}
{"id": "C35", "title": "Hardware leading-zero counter", "statement": "For every width and every input the leading-zero counter returns the number of zero bits above the most significant one, and the result fits in the declared output width.", "quantifier": "all widths and inputs", "why_tests_cant": "unbounded widths", "anchors": ["metalibm_hw_blocks/lzc.py:ML_LeadingZeroCounter"]}
{"id": "C36", "title": "Compressor trees preserve the sum", "statement": "3:2 and 4:2 compressors and every reduction method (Wallace, Dadda, 4:2 variants) over an arbitrary bit heap preserve the numeric sum of the heap, and reduction terminates with at most two bits per column.", "quantifier": "all bit heaps, all bit values", "why_tests_cant": "unbounded heaps and heights", "anchors": ["metalibm_hw_blocks/mult_array.py:comp_3to2", "metalibm_hw_blocks/mult_array.py:wallace_reduction", "metalibm_hw_blocks/mult_array.py:dadda_reduction", "metalibm_hw_blocks/mult_array.py:dadda_4to2_reduction", "metalibm_hw_blocks/mult_array.py:BitHeap"]}
{"id": "C37", "title": "Multiplier partial products sum to the product", "statement": "The partial products inserted in the bit heaps for a product of two fixed-point operands (plain array and Booth radix-4), signed or unsigned, sum to the exact product with the declared scaling.", "quantifier": "all operand widths, signednesses, fraction sizes and operand values", "why_tests_cant": "unbounded widths", "anchors": ["metalibm_hw_blocks/mult_array.py:MultArray.merge_product_in_heap", "metalibm_hw_blocks/mult_array.py:booth_radix4_multiply"]}
{"id": "C38", "title": "Compound adder", "statement": "The recursive compound adder returns both x+y and x+y+1 for every operand pair, for every width and every recursion cut-off.", "quantifier": "all widths, cut-offs and operands", "why_tests_cant": "unbounded widths", "anchors": ["metalibm_hw_blocks/compound_adder.py:CompoundAdder.rec_add"]}
{"id": "C39", "title": "Integer divider", "statement": "The digit-recurrence integer divider returns the integer quotient (and remainder invariant) for every dividend and non-zero divisor, and the declared value for division by zero.", "quantifier": "all widths, dividends and divisors", "why_tests_cant": "unbounded widths", "anchors": ["metalibm_hw_blocks/int_div.py"]}
{"id": "C40", "title": "Floating-point truncation block", "statement": "The hardware truncation block returns the input rounded toward zero to an integer, for every finite input pattern.", "quantifier": "all formats and bit patterns", "why_tests_cant": "2^64 patterns, unbounded formats", "anchors": ["metalibm_hw_blocks/fp_int_conv.py:FP_Trunc"]}
{"id": "C41", "title": "Hardware floating-point predicates", "statement": "The RTL predicates (is NaN, infinity, zero, subnormal) decide the IEEE class for every bit pattern.", "quantifier": "all formats and patterns", "why_tests_cant": "2^64 patterns, unbounded formats", "anchors": ["metalibm_hw_blocks/rtl_blocks.py"]}
{"id": "C42", "title": "Leading-zero anticipation error is at most one", "statement": "The anticipated leading-zero count of a sum equals the true count or is one less than it.", "quantifier": "all widths and operand pairs", "why_tests_cant": "unbounded widths", "anchors": ["metalibm_hw_blocks/lza.py:ML_LeadingZeroAnticipator.generate_lza"]}
{"id": "C43", "title": "Pipelining preserves the function", "statement": "After stage retiming, the registered circuit's output at cycle t+latency equals the combinational function of the inputs presented at cycle t.", "quantifier": "all circuits, stage assignments, all input streams and all cycles", "why_tests_cant": "unbounded streams and circuits", "anchors": ["metalibm_core/opt/p_pipelining.py:retime_op", "metalibm_core/opt/p_pipelining.py:propagate_op", "metalibm_core/opt/p_pipelining.py:generate_pipeline_stage"]}
{"id": "C44", "title": "Datapath sizing prevents overflow", "statement": "The fixed-point format inferred for addition, subtraction, negation, multiplication, constants and leading-zero counts can represent the exact result for every operand value of the operand formats.", "quantifier": "all operand formats (sizes, signedness, fraction sizes) and all operand values", "why_tests_cant": "unbounded formats and values", "anchors": ["metalibm_core/opt/p_size_datapath.py:solve_format_Addition", "metalibm_core/opt/p_size_datapath.py:solve_format_Subtraction", "metalibm_core/opt/p_size_datapath.py:solve_format_Multiplication", "metalibm_core/opt/p_size_datapath.py:solve_format_Negation", "metalibm_core/opt/p_size_datapath.py:determine_minimal_fixed_format_cst"]}
{"id": "C45", "title": "Common format contains all operands", "statement": "The format selected to unify a list of fixed-point formats represents every value of every one of them exactly.", "quantifier": "all non-empty lists of formats and all their values", "why_tests_cant": "unbounded lists", "anchors": ["metalibm_core/opt/rtl_fixed_point_utils.py:largest_format", "metalibm_core/opt/rtl_fixed_point_utils.py:solve_equal_formats"]}
{"id": "C46", "title": "Error-free sums", "statement": "The generated two-sum and fast-two-sum sequences return a pair whose exact sum is the exact sum of the operands (fast-two-sum under its magnitude precondition).", "quantifier": "all operand pairs of a rounding system", "why_tests_cant": "2^128 operand pairs", "anchors": ["metalibm_core/opt/ml_blocks.py:generate_twosum", "metalibm_core/opt/ml_blocks.py:generate_fasttwosum"]}
{"id": "C47", "title": "Declared error bounds are upper bounds", "statement": "The global relative error a meta-block declares from input errors and its own error is at least the true propagated error.", "quantifier": "all real operands, all admissible input errors", "why_tests_cant": "continuum of operands and errors", "anchors": ["metalibm_core/opt/ml_blocks.py:MB_Mul111", "metalibm_core/opt/ml_blocks.py:MB_Mul211", "metalibm_core/opt/ml_blocks.py:MB_Add222"]}
{"id": "C48", "title": "Multi-precision comparisons, min, max and abs", "statement": "On normalized multi-limb numbers, limb-wise comparison, equality, min, max and absolute value agree with the represented real values.", "quantifier": "all normalized limb tuples for any monotone rounding", "why_tests_cant": "unbounded values", "anchors": ["metalibm_core/core/multi_precision.py:legalize_mp_2elt_comparison", "metalibm_core/core/multi_precision.py:legalize_mp_3elt_comparison", "metalibm_core/opt/p_expand_multi_precision.py:MultiPrecisionExpander.expand_max"]}
{"id": "C49", "title": "Multi-precision constants", "statement": "The limbs of a multi-precision constant sum to the constant up to the rounding residue of the last limb; converting to a format with more limbs keeps the value exactly, and converting to fewer limbs loses at most the rounding error of the last limb kept.", "quantifier": "all values, all limb counts", "why_tests_cant": "continuum of values", "anchors": ["metalibm_core/opt/p_expand_multi_precision.py:MultiPrecisionExpander.expand_cst", "metalibm_core/core/ml_formats.py:ML_FP_MultiElementFormat", "metalibm_core/opt/p_expand_multi_precision.py:MultiPrecisionExpander.expand_conversion"]}
{"id": "C50", "title": "Vectorized fast path agrees with the scalar scheme", "statement": "For each lane whose validity mask is true, the linear path extracted for vectorization computes the value the scalar scheme returns.", "quantifier": "all schemes (nested conditions, assignments, returns, likely flags) and all inputs", "why_tests_cant": "unbounded schemes", "anchors": ["metalibm_core/core/static_vectorizer.py:StaticVectorizer.extract_vectorizable_path"]}
{"id": "C51", "title": "remquo computes the IEEE remainder", "statement": "In exact arithmetic the remquo scheme returns x - n*y with n the nearest integer to x/y (ties to even) and the signed low bits of n, and its watchdog never fires.", "quantifier": "all non-zero y, all x, subnormal or not", "why_tests_cant": "2^128 operand pairs, data-dependent loops", "anchors": ["metalibm_functions/remquo.py:MetaRemQuo.generate_scheme"]}
{"id": "C52", "title": "Dequantizer rounding", "statement": "For each rounding mode the increment decision yields the value rounded as the mode requires.", "quantifier": "all exact values and all rounding modes", "why_tests_cant": "unbounded values", "anchors": ["metalibm_hw_blocks/dequantizer.py:Dequantizer.generate_scheme"]}
{"id": "C53", "title": "Constant graph evaluation", "statement": "Evaluating a constant sub-graph returns the value of the expression whenever it returns a value.", "quantifier": "all expression graphs", "why_tests_cant": "unbounded graphs", "anchors": ["metalibm_core/core/legalizer.py:evaluate_cst_graph", "metalibm_core/core/legalizer.py:evaluate_graph"]}
{"id": "C54", "title": "Placeholder extraction keeps statement order", "statement": "Extracting placeholder statements places every extracted statement before the statement using it and keeps all statements exactly once.", "quantifier": "all statement trees", "why_tests_cant": "unbounded trees", "anchors": ["metalibm_core/core/legalizer.py:PlaceHolder extraction"]}
{"id": "C55", "title": "Random test inputs respect their range", "statement": "Every value produced by a random generator configured with an interval lies in that interval and is representable in the format.", "quantifier": "all generator states (all random draws), all intervals and formats", "why_tests_cant": "all outcomes of the random source", "anchors": ["metalibm_core/core/random_gen.py:IntRandomGen", "metalibm_core/core/random_gen.py:FPRandomGen", "metalibm_core/core/random_gen.py:FixedPointRandomGen"]}
{"id": "C56", "title": "Inverse-square-root exponent seed", "statement": "The power-of-two scaling and parity correction of the inverse square-root seed equals 2^(-e/2) for every exponent.", "quantifier": "all integers e", "why_tests_cant": "unbounded exponents", "anchors": ["metalibm_core/core/legalizer.py:legalize_invsqrt_seed"]}
{"id": "C57", "title": "Function inlining preserves the value", "statement": "Inlining a function scheme at given actual arguments assigns to the destination the value the function returns on those arguments.", "quantifier": "all function schemes, all arguments, any sharing", "why_tests_cant": "unbounded graphs", "anchors": ["metalibm_core/opt/p_function_inlining.py:inline_function"]}
{"id": "C58", "title": "Array-test tables are laid out without overlap", "statement": "Sub-arrays of an array test occupy disjoint consecutive slices; the expected value stored for element i of array t is the one computed from the input stored for the same element.", "quantifier": "all lists of array sizes", "why_tests_cant": "unbounded lists", "anchors": ["metalibm_core/core/array_function.py:generate_2d_multi_table", "metalibm_core/core/array_function.py:ML_ArrayFunction.generate_test_tables"]}
{"id": "C59", "title": "Memoized graph rewriting is semantics-preserving", "statement": "If every local transformation or lowering action preserves a node's value, then rewriting a whole shared graph preserves the value of the root, and each node is rewritten at most once.", "quantifier": "all acyclic graphs with sharing and all value-preserving local rewrites", "why_tests_cant": "unbounded graphs", "anchors": ["metalibm_core/opt/node_transformation.py:Pass_NodeTransformation.transform_graph", "metalibm_core/opt/generic_lowering.py:LoweringEngine.lower_node"]}
{"id": "C60", "title": "Next and previous floating-point values", "statement": "fp_next/fp_previous of a positive value return the adjacent representable values.", "quantifier": "all positive values of all formats", "why_tests_cant": "2^63 values per format", "anchors": ["metalibm_core/utility/num_utils.py:ulp", "metalibm_core/utility/num_utils.py:fp_next"]}
{"id": "C61", "title": "Field-based table indices select the right sub-interval", "statement": "The index extracted from the upper mantissa bits (and low exponent bits) of a floating-point number is inside the table, and the sub-interval reported for that index contains the number. The reported sub-intervals are consecutive: they cover the indexed interval without gap or overlap.", "quantifier": "all floating-point formats, all field widths, all normal inputs of the indexed interval", "why_tests_cant": "unbounded formats and all inputs", "anchors": ["metalibm_core/core/ml_table.py:generic_mantissa_msb_index_fct", "metalibm_core/core/indexing.py:SubMantissaIndexing", "metalibm_core/core/indexing.py:SubFPIndexing"]}
{"id": "C62", "title": "Immediate dominators are the closest strict dominators", "statement": "For every reachable block other than the entry, the immediate-dominator map gives a block that strictly dominates it and is dominated by all its other strict dominators; the entry gets none; the result does not depend on set iteration order.", "quantifier": "all control-flow graphs, all reachable blocks, all iteration orders", "why_tests_cant": "unbounded graphs, paths and iteration orders", "anchors": ["metalibm_core/opt/p_gen_bb.py:build_immediate_dominator_map"]}
{"id": "C63", "title": "Dominance frontiers and phi-node placement", "statement": "The dominance frontier map contains Y for X exactly when X dominates a predecessor of Y and does not strictly dominate Y; phi-node insertion terminates and puts exactly one phi-node for a variable in each block of the iterated frontier of its definitions and none elsewhere, in whatever order the work set is emptied.", "quantifier": "all control-flow graphs, all definition sets, all work-set orders", "why_tests_cant": "unbounded graphs and orders", "anchors": ["metalibm_core/opt/p_gen_bb.py:get_dominance_frontiers", "metalibm_core/opt/p_gen_bb.py:phi_node_insertion"]}
{"id": "C64", "title": "Blocks declared exact are exact", "statement": "A multi-limb block that declares a zero local error (two-limb product, three-limb normalization, limb additions, fast sums selected from operand ranges) returns limbs whose exact sum is the exact result.", "quantifier": "all operands of a format, any smallest exponent, any rounding to nearest, all operand ranges", "why_tests_cant": "2^128 or more operand tuples", "anchors": ["metalibm_core/opt/ml_blocks.py:Mul211", "metalibm_core/opt/ml_blocks.py:Split", "metalibm_core/opt/ml_blocks.py:Normalize_33", "metalibm_core/opt/ml_blocks.py:MP_Add321", "metalibm_core/opt/ml_blocks.py:MP_Add321_v2", "metalibm_core/opt/ml_blocks.py:MB_Add211_Fast"]}
{"id": "C65", "title": "Multi-limb FMA computes x*y+z", "statement": "Each multi-limb fused multiply-add expansion approximates x*y+z of the represented values to two-limb precision.", "quantifier": "all non-overlapping limb tuples of a format", "why_tests_cant": "unbounded operands", "anchors": ["metalibm_core/opt/ml_blocks.py:MP_FMA2111", "metalibm_core/opt/ml_blocks.py:MP_FMA2212"]}
{"id": "C66", "title": "remquo survives the rounding of its own operations", "statement": "With every floating-point operation of the generated remquo rounded in the format it runs in, the result is still the IEEE remainder and the signed low quotient bits: all the intermediate values that matter are exact.", "quantifier": "all formats, all monotone roundings, all finite x and all non-zero y of the format, normal or subnormal", "why_tests_cant": "2^128 operand pairs; the failing divisors are a thin slice of one binade", "anchors": ["metalibm_functions/remquo.py:MetaRemQuo.generate_scheme"]}
{"id": "C67", "title": "Three-limb arithmetic meets its declared error and limb bounds", "statement": "Each three-limb addition and multiplication block returns limbs whose sum is within the declared local relative error of the exact result, whose middle limb is at most the declared factor times the head and whose low limb does not overlap the middle one, for all operands its checks accept.", "quantifier": "all limb tuples of a format within the declared limb gaps and ranges, all round-to-nearest roundings", "why_tests_cant": "up to 2^384 operand tuples; the declared constants are asymptotic in unbounded limb gaps", "anchors": ["metalibm_core/opt/ml_blocks.py:MB_Add333", "metalibm_core/opt/ml_blocks.py:MB_Add332", "metalibm_core/opt/ml_blocks.py:MB_Add322", "metalibm_core/opt/ml_blocks.py:MB_Add331", "metalibm_core/opt/ml_blocks.py:MB_Mul322", "metalibm_core/opt/ml_blocks.py:MB_Mul321", "metalibm_core/opt/ml_blocks.py:MB_Mul332", "metalibm_core/opt/ml_blocks.py:MB_Mul333", "metalibm_core/opt/ml_blocks.py:MB_Mul313"]}
{"id": "C68", "title": "Fixed-point arithmetic lowered to C integers is exact arithmetic rounded down", "statement": "For fixed-point formats that fit in a C integer, the C code generated for a conversion, addition, subtraction or multiplication returns the exact result rounded toward minus infinity to the result format whenever that result is representable; comparisons agree with those of the numbers, and conversions from and to floating-point are exact when they can be.", "quantifier": "all triples of fixed-point formats of at most 128 bits, all operand values of these formats, signed and unsigned", "why_tests_cant": "the format space is a product of three integer/fraction sizes and signs, with 2^256 operand pairs; failing cases depend on the C type each size is rounded up to", "anchors": ["metalibm_core/targets/common/fixed_point_backend.py:conv_modifier", "metalibm_core/targets/common/fixed_point_backend.py:fixed_modifier", "metalibm_core/targets/common/fixed_point_backend.py:mul_modifier", "metalibm_core/targets/common/fixed_point_backend.py:legalize_fixed_point_comparison", "metalibm_core/targets/common/fixed_point_backend.py:conv_from_fp_modifier", "metalibm_core/targets/common/fixed_point_backend.py:conv_fixed_to_fp_modifier", "metalibm_core/code_generation/generic_processor.py:full_mul_modifier"]}
{"id": "C69", "title": "Seeded generators are reproducible", "statement": "A random input generator built with a seed produces the same sequence of values whenever it is built with the same seed, whatever else in the process uses the random module.", "quantifier": "all formats, weight maps and intervals, all states of the process-wide random generator", "why_tests_cant": "all interleavings with other users of the process-wide generator", "anchors": ["metalibm_core/core/random_gen.py:FPRandomGen", "metalibm_core/core/random_gen.py:RandomDescriptor", "metalibm_core/core/ml_entity.py:RawLogicVectorRandomGen"]}
{"id": "C70", "title": "The generated self-test accepts exactly the results that meet the accuracy goal", "statement": "For a function generated with an accuracy goal (correctly rounded, faithful, absolute or relative error), the generated self-test accepts a result if and only if that result meets the goal with respect to the exact value of the function; NaN, infinite and zero results included.", "quantifier": "all floating-point formats, all exact real values and special values, all results of the format, all goals", "why_tests_cant": "the self-test is the oracle of every other test: its own decisions are only exercised on the inputs and results drawn; the exact values are real numbers", "anchors": ["metalibm_core/core/precisions.py:ML_CorrectlyRounded", "metalibm_core/core/precisions.py:ML_Faithful", "metalibm_core/core/precisions.py:ML_TwoFactorPrecision", "metalibm_core/core/precisions.py:ML_DegradedAccuracyAbsolute", "metalibm_core/core/precisions.py:ML_DegradedAccuracyRelative", "metalibm_core/core/ml_formats.py:ML_Std_FP_Format.get_c_cst", "metalibm_core/core/ml_formats.py:ML_Std_FP_Format.saturate"]}
{"id": "C71", "title": "The generated test program fails exactly when a test case fails", "statement": "The exit code of the generated functional test is 0 if and only if every standard case (when enabled), every user-supplied case and every random case passes its check, and 1 otherwise; at least the requested number of random cases is run, none is skipped because of the vector size, and the tables are never read out of bounds.", "quantifier": "all numbers of standard, user and random cases, all vector sizes, all outcomes of the individual checks", "why_tests_cant": "this is the loop that runs the tests: a skipped or ignored case is invisible to the test suite it is part of", "anchors": ["metalibm_core/core/ml_function.py:generate_test_tables", "metalibm_core/core/ml_function.py:get_vector_test_wrapper", "metalibm_core/core/ml_function.py:get_scalar_test_wrapper"]}
{"id": "C72", "title": "The reported maximal error is the maximum of the errors", "statement": "The error returned by the generated maximal-error program is the largest of the errors of the test cases, reached at the input it prints; a result that is NaN when it should not be, or the reverse, is reported by a negative value.", "quantifier": "all lists of test cases, all results and expected values of the format including NaN, infinities and zeros", "why_tests_cant": "all lists of results, with special values at any position; a missed maximum leaves no trace", "anchors": ["metalibm_core/core/ml_function.py:generate_scalar_max_error_eval", "metalibm_core/core/ml_function.py:generate_vector_max_error_eval", "metalibm_core/core/precisions.py:ML_CorrectlyRounded.compute_error", "metalibm_core/core/precisions.py:ML_TwoFactorPrecision.compute_error"]}
{"id": "C73", "title": "The hardware floating-point adder is correctly rounded", "statement": "For every pair of encodings of numbers of the format, the generated FP_Adder entity outputs the encoding of their sum rounded to nearest, ties to even, which is what its numeric emulation expects.", "quantifier": "all floating-point formats and all pairs of encodings", "why_tests_cant": "2^64 pairs in binary32 alone; the wrong cases are classes of operands (signs, exponent gaps, rounding carries) that the single standard test case does not reach", "anchors": ["metalibm_hw_blocks/ml_fp_adder.py:FP_Adder.generate_scheme", "metalibm_hw_blocks/ml_fp_adder.py:FP_Adder.numeric_emulate", "metalibm_core/core/hdl_legalizer.py:mantissa_extraction_modifier", "metalibm_core/core/ml_hdl_operations.py:FloatBuild"]}
{"id": "C74", "title": "The hardware fused multiply-add returns the correctly rounded x*y+z", "statement": "For every format of the factors and of the accumulator and all finite inputs, the output signal of the generated fused multiply-add entity is the encoding of x*y+z rounded once, to nearest, ties to even. (The code violates this: only results where the addend dominates are right, the others are half the right value.)", "quantifier": "all floating-point formats of the factors and of the accumulator, all triples of input encodings", "why_tests_cant": "the inputs are 96 bits wide in binary32; the errors depend on exponent differences and ties that random tests of the entity meet rarely", "anchors": ["metalibm_hw_blocks/ml_fp_mpfma.py:FP_MPFMA.generate_scheme"]}
{"id": "C75", "title": "The generated C function computes what its description says", "statement": "For every function description (expressions with shared sub-expressions, assignments, conditionals, loops, return), every meaning of the operators and all argument values, calling the generated C function returns the value obtained by evaluating the description directly, re-evaluating each expression at each use, and the generated code never uses an undeclared variable. (The code violates this in five ways: reuse of a value computed inside a loop after the loop, reuse of a value whose variable was assigned meanwhile, a loop condition already computed before the loop, a local variable first met inside a branch, and a generated name equal to the name of a C argument.)", "quantifier": "all descriptions, all interpretations of the operators, all argument values, all numbers of loop iterations", "why_tests_cant": "the sharing of computed values depends on the shape of the graph and on the order of statements; there are infinitely many descriptions, and the wrong ones produce code that compiles and is wrong for some inputs only", "anchors": ["metalibm_core/code_generation/generators/c_code_generator.py:CCodeGenerator.generate_expr", "metalibm_core/code_generation/generator_utility.py:SymbolOperator.generate_expr", "metalibm_core/code_generation/code_object.py:NestedCode", "metalibm_core/code_generation/code_object.py:MultiSymbolTable.get_free_name"]}
{"id": "C76", "title": "A shared operation of a straight-line description is computed once", "statement": "For every description without conditionals and loops whose operations all keep their results in variables, the generated C function contains exactly as many operators as the description has different operations, however many times each one is used.", "quantifier": "all straight-line descriptions, all sharing patterns and all evaluation orders of operands", "why_tests_cant": "the number of uses of a shared node can grow exponentially with its depth; a test shows the count for one graph only", "anchors": ["metalibm_core/code_generation/generators/c_code_generator.py:CCodeGenerator.generate_expr", "metalibm_core/code_generation/generator_utility.py:SymbolOperator.generate_expr"]}
{"id": "C77", "title": "The generated exponential is faithful for every input", "statement": "For a binary format proportioned like binary32 or binary64, the function ML_Exponential generates returns, for every finite input, one of the two data of the format next to the exact exponential (overflow to +inf, subnormal results and underflow to +0 included), provided the polynomial part approximates exp(r)-1-r to 2^-(f+5) on the reduced interval; NaN, +inf, -inf and both zeros give quiet NaN, +inf, +0 and 1.", "quantifier": "every binary format with 2e+7 <= f and 2f+2 <= emax, every finite datum of it, every evaluation of the polynomial that meets the error bound", "why_tests_cant": "binary64 has 2^64 inputs; the reduction, reconstruction and late overflow and underflow branches each have edge inputs that sampling misses", "anchors": ["metalibm_functions/ml_exp.py:ML_Exponential.generate_scalar_scheme", "metalibm_core/support_lib/ml_support_lib.h:ml_exp_insertion_fp32"]}
{"id": "C78", "title": "The generated division returns the quotient", "statement": "The function ML_Division generates returns, for two finite numbers, one of the two data of the format next to their quotient (the correctly rounded one if that accuracy was requested), for every reciprocal seed within its documented error, and the IEEE-754 result for NaN, infinite and null operands.", "quantifier": "every binary format at least as large as binary16, every pair of data, every seed function within the error bound, every number of iterations that reaches the precision", "why_tests_cant": "there are 2^64 pairs in binary32 and 2^128 in binary64; the scaling factors overflow and the last rounding is wrong on isolated pairs only", "anchors": ["metalibm_functions/ml_div.py:ML_Division.generate_scalar_scheme", "metalibm_functions/ml_div.py:NR_Iteration", "metalibm_functions/ml_div.py:compute_reduced_division", "metalibm_functions/ml_div.py:scaling_div_result", "metalibm_core/support_lib/ml_support_lib.h:ml_exp_extraction_dirty_fp32"]}
{"id": "C79", "title": "The generated square root is correctly rounded and the generated reciprocal square root is accurate", "statement": "The function MetalibmSqrt generates returns the correctly rounded square root of every finite positive number, and the function ML_Isqrt generates returns a reciprocal square root with a relative error of a few units in the last place, for every seed within its documented error; NaNs, infinities, zeros and negative operands give the IEEE-754 result.", "quantifier": "every binary format with at least 20 fraction bits (10 for faithfulness and for the error of the reciprocal), every datum, every seed function within the error bound, every number of iterations that reaches the precision", "why_tests_cant": "there are 2^64 numbers in binary64 and the wrong roundings are isolated; the result depends on the seed of the target, which is different on each processor", "anchors": ["metalibm_functions/ml_sqrt.py:MetalibmSqrt.generate_scalar_scheme", "metalibm_functions/ml_sqrt.py:NR_Iteration", "metalibm_functions/ml_sqrt.py:compute_sqrt", "metalibm_functions/ml_isqrt.py:ML_Isqrt.generate_scheme", "metalibm_functions/ml_isqrt.py:compute_isqrt"]}
{"id": "C80", "title": "The generated remquo returns the exact IEEE-754 remainder and the low bits of the quotient", "statement": "For finite operands the function MetaRemQuo generates returns x - n*y exactly, with n the integer nearest to x/y, ties to even; the quotient it stores has the sign of x/y and is congruent in magnitude to n modulo 2 to the number of quotient bits; a null remainder has the sign of x; NaN, infinite and null operands give what IEEE-754 says; the loops end before the watchdog does.", "quantifier": "every binary format with at least 3 exponent bits and an exponent range below 5000 steps, every pair of data, every number of quotient bits below the width of the integer, all three modes (remainder only, quotient only, remainder and quotient)", "why_tests_cant": "there are 2^128 pairs of binary64 numbers, the number of iterations depends on the distance of the exponents, and the tie decisions happen on isolated pairs", "anchors": ["metalibm_functions/remquo.py:MetaRemQuo.generate_scheme"]}
{"id": "C81", "title": "The generated fmod returns the exact remainder of the truncated division", "statement": "For finite operands the function MetaFMOD generates returns x - n*y exactly, smaller than y in magnitude and not of the sign opposite to that of x, after a finite number of steps; NaN operands, infinite dividends and null divisors give a NaN, infinite divisors and null dividends give the dividend.", "quantifier": "every binary format with at least 3 exponent bits, every pair of data", "why_tests_cant": "there are 2^128 pairs of binary64 numbers, the number of steps depends on the distance of the exponents, and the quotients rounded up to an integer are isolated", "anchors": ["metalibm_functions/fmod.py:MetaFMOD.generate_scalar_scheme"]}
{"id": "C82", "title": "Payne and Hanek reduction of large arguments", "statement": "The reduction that generate_payne_hanek generates for binary64 returns, for every finite argument of magnitude at least one, an integer and a number of [-1/2, 1/2] whose sum is the product of the argument and of the constant modulo 2^(k+1), up to the accuracy requested and the rounding of the accumulator; its tables are read within their bounds and no integer overflows.", "quantifier": "every finite binary64 argument of magnitude at least one, every constant, every number of bits n and every k", "why_tests_cant": "The chunks that are read depend on the exponent of the argument, the products on all its bits and on the constant: a boundary that is off by two bits only shows for two exponents out of twenty-four, and only for arguments whose low bits and constants whose bits at that position are set.", "anchors": ["metalibm_core/core/payne_hanek.py: generate_payne_hanek", "metalibm_functions/ml_sincos.py: ML_SinCos.generate_scalar_scheme"]}
{"id": "C83", "title": "The argument reduction of the generated sine and cosine", "statement": "For a finite binary64 argument the reduction of the generated sine and cosine returns an index j of the table and a small number t such that j*pi/2^14 + t is the angle of the argument (shifted by three quarters of a turn for the sine) up to whole turns and a small error. Below 2^33 in magnitude the error is at most half an ulp of the argument plus 2^-60, on [2^33, 2^49) and [2^52, 2^72) at most 2^-60. It is wrong elsewhere: the product that is marked as exact is rounded, so that 4294971459 is reduced with an error above 2^-22; the test of the large arguments compares the signed value, so that every argument below -2^51 overflows the integer conversion; [2^51, 2^52) overflows; from 2^1012 the table of the constant is read out of bounds.", "quantifier": "Every binary64 argument, both functions (sine and cosine).", "why_tests_cant": "There are 2^64 arguments; the loss of accuracy and the overflows hit whole binades that the tests of the file do not sample, or that they sample (the first standard test case is below -2^51) with a loose tolerance.", "anchors": ["metalibm_functions/ml_sincos.py:ML_SinCos.generate_scalar_scheme", "metalibm_core/core/payne_hanek.py:generate_payne_hanek"]}
{"id": "C84", "title": "Fusing multiplications and additions", "statement": "The pass that fuses multiplications with additions and subtractions (fuse_fma) replaces an expression by one with the same exact value, in the reals as well as in modular integers. A fused operation and its lowering to the standard fused multiply-add and negations round that value once, to nearest. When every product of the expression is exact the computed result is unchanged, including NaN, infinities and the sign of zeros; a single fused product and sum is never farther from the exact value than the two rounded operations. An expression the C backend supports stays supported if its sums are floating-point. It is wrong elsewhere: a fused integer sum and, with dot products enabled, any sum of two products are no longer supported by any backend; and the splitting of a number in two halves, that relies on the rounding of its operations, is destroyed: its high half becomes the number itself.", "quantifier": "Every expression tree of products, sums, fused operations and other operations, with any flags, and every value of its leaves.", "why_tests_cant": "The expressions are unbounded trees and the equality is over all values of their leaves; the failures concern combinations (integer operands, dot products, error-free transformations) that the tests of the pass do not build.", "anchors": ["metalibm_core/opt/p_function_std.py:FunctionPass_FuseFMA", "metalibm_core/opt/p_function_std.py:fuse_multiply_add", "metalibm_core/code_generation/generic_processor.py:c_code_generation_table", "metalibm_core/core/legalizer.py:legalize_fma_to_std", "metalibm_core/opt/ml_blocks.py:Split"]}
{"id": "C85", "title": "Vector comparisons and selections on x86", "statement": "On x86 with SSE or AVX2, a comparison of two vectors is lowered to instructions that compute, in every lane, all ones if the comparison holds and zero otherwise, including for NaN operands. A selection between two vectors returns in every lane, bit for bit, the first operand if the condition holds and the second one otherwise, where the condition is a comparison or a combination of comparisons. A test that a mask is all zero, or has no zero lane, answers what it says. It is wrong elsewhere: the order of unsigned integers is that of signed ones; a selection on a floating-point order comparison with a NaN returns zero, neither of its operands; a selection on a negation raises an exception; the lowering of a selection on a vector of booleans does not end.", "quantifier": "Every comparison predicate and element format of the tables, every tree of comparisons, every value of the lanes, every depth of recursion.", "why_tests_cant": "The conditions are unbounded trees and the lanes range over 2^64 pairs of encodings; the failures are on NaN and on unsigned values above half of the range, which random tests of the functions do not produce.", "anchors": ["metalibm_core/targets/intel/x86_processor.py:expand_sse_comparison", "metalibm_core/targets/intel/x86_processor.py:expand_avx2_comparison", "metalibm_core/targets/intel/x86_processor.py:squash_sse_avx_cst_select", "metalibm_core/targets/intel/x86_processor.py:convert_select_to_logic", "metalibm_core/targets/intel/x86_processor.py:pred_vector_select_mone_zero", "metalibm_core/targets/intel/x86_processor.py:legalize_test_IsMaskNotAnyZero"]}
{"id": "C86", "title": "Constants, conversions and table accesses on x86", "statement": "On x86 the initializer generated for a constant vector of integers holds in every lane the given value; the conversion of 64-bit integers whose interval fits 32 bits to floating-point numbers is exact in every lane; the rounding of a floating-point vector to integers is to nearest, ties to even; the extraction of the mantissa of a normal number gives the number of [1, 2) of which it is the product by a power of two; the access to a table of two dimensions reads the element of the given row and column. It is wrong elsewhere: a constant that does not fit its lane changes the next lane, or makes the generation endless; the conversion of a floating-point vector to integers rounds to nearest whereas that of a scalar truncates; the mantissa of zero is one, that of a subnormal number is unrelated to it, that of a NaN is a number.", "quantifier": "Every list of constants and every lane width that divides 64, every value of the lanes, every floating-point format, every table and pair of indices.", "why_tests_cant": "The lanes range over all encodings and the vectors over all lists of constants; the wrong cases, out of range constants, subnormal numbers and vectorized conversions, are not in the test values.", "anchors": ["metalibm_core/targets/intel/x86_processor.py:get_sse_vector_int_cst", "metalibm_core/targets/intel/x86_processor.py:signed2unsigned", "metalibm_core/targets/intel/x86_processor.py:conversion_to_avx_mm256_cvtepi64_pd", "metalibm_core/targets/intel/x86_processor.py:expand_vec_mantissa_extraction", "metalibm_core/targets/intel/x86_processor.py:linearize_2d_tableload"]}
{"id": "C87", "title": "Formats given to the operations", "statement": "The passes that give formats to an operation graph keep the formats that are given and give one to every operation; the operands of an arithmetic operation, including its constants, end up with formats that are not larger than its own; its format holds all the values of its operands when these are floating-point, or integers without an unsigned one mixed with a signed one of its size; and the format chosen for an integer of known interval holds the interval if 64 bits are enough. It is wrong elsewhere: an integer of unknown interval has 32 bits; an operation on an integer and a floating-point number of the same size, or on a signed and an unsigned integer, does not hold the values of the operand; operations on small integers or on constants only have no format; a constant used twice takes the format of its first use; a constant compared with a small integer loses its format.", "quantifier": "Every operation graph in the order of its traversal, every partial assignment of formats, every interval.", "why_tests_cant": "The graphs are unbounded and the result depends on sharing and on the order of the traversal; the values that a format does not hold are out of the range of the tests.", "anchors": ["metalibm_core/opt/p_function_typing.py:instantiate_abstract_precision", "metalibm_core/opt/p_function_typing.py:instantiate_precision", "metalibm_core/opt/p_function_typing.py:get_integer_format", "metalibm_core/opt/p_function_typing.py:merge_ops_abstract_integer_format", "metalibm_core/opt/p_function_typing.py:merge_ops_abstract_float_format", "metalibm_core/opt/p_function_typing.py:merge_format", "metalibm_core/opt/p_function_typing.py:propagate_format_to_cst", "metalibm_core/core/ml_formats.py:merge_abstract_format"]}
{"id": "C88", "title": "The generated exp2 returns 2^x within two units in the last place, and the IEEE results at the limits", "statement": "For every binary format, every finite input between the least subnormal exponent and the overflow bound, the generated base-2 exponential returns a finite number close to 2^x (faithful is claimed; two units in the last place of the normal numbers are proved), integer powers of two are exact, +inf and inputs at or above emax+1 give +inf, -inf and inputs below the subnormal range give +0, a NaN gives a NaN, and the table is never read out of its bounds. The code does not meet this on the last sixteenth below the overflow bound (NaN is returned), at the least subnormal exponent (0 is returned) and for a NaN on a processor whose conversion saturates (the table is read past its end).", "quantifier": "every format with e <= f and 10 <= f < emax, every input datum, every polynomial part accurate to a quarter of a unit roundoff on |r| <= 1/16, every behaviour of the undefined conversions", "why_tests_cant": "the bound must hold for all the 2^32 or 2^64 inputs and for the rounding of each operation; the shipped test list has six values and its emulation calls mpfr_exp instead of mpfr_exp2", "anchors": ["metalibm_functions/ml_exp2.py:ML_Exp2.generate_scalar_scheme"]}
{"id": "C89", "title": "The generated pow returns the IEEE 754 special results and the powers of two", "statement": "For every two operands, the generated power returns the results clause 9.2.1 of IEEE 754 fixes for null, infinite and NaN operands, for the bases 1 and -1, for negative bases, and a number close to x^y otherwise; in particular an integer power of two is exact and a power too great or too small overflows or underflows. The code meets the special results but for: a null base with an infinite exponent, negative odd exponents of -0 and -inf, the base 1, a NaN base, negative finite bases (their sign is lost); powers of two with an exponent that is not an integer lose the fraction; powers of two out of the normal range wrap around.", "quantifier": "every format with e <= f and 10 <= f, f+2 <= emax, every two operands, every approximation of the logarithm and of the exponential polynomial, every behaviour of the undefined conversions", "why_tests_cant": "the special cases hold for infinitely many pairs (every odd exponent, every negative base); the shipped test list has a handful of pairs", "anchors": ["metalibm_functions/pow.py:MetaPow.generate_scalar_scheme", "metalibm_functions/ml_exp2.py:ML_Exp2.generate_scalar_scheme"]}
{"id": "C90", "title": "Turning an operation graph into machine instructions keeps what the function does", "statement": "When a function made of basic blocks is turned into machine code over virtual registers, running that code with the arguments in the input registers performs the same stores in the same order and leaves the returned value in the output register.", "quantifier": "every program made of basic blocks (branches, conditional branches, stores, assignments, returns), every sharing of operation nodes, every initial value of the variables and registers, every run that returns", "why_tests_cant": "programs, sharing patterns, paths and values are unbounded; a test compiles one function and runs a few inputs, mostly through the first branch", "anchors": ["metalibm_core/code_generation/machine_program_linearizer.py: MachineInsnGenerator.linearize_graph", "metalibm_core/opt/p_machine_code_gen.py: Pass_LinearizeOperationGraph, locate_return_values"]}
{"id": "C91", "title": "The reported combinatorial critical path is the longest path of the circuit", "statement": "For a combinatorial entity, the latency reported by the critical path evaluation for a signal is the largest sum of operation delays along any path that reaches the signal, through operations and intermediate signals.", "quantifier": "every circuit (list of assignments of expressions to signals), every sharing of nodes, every operand size", "why_tests_cant": "circuits, path lengths and sizes are unbounded, and the result is only printed: no test compares it with the paths", "anchors": ["metalibm_core/opt/p_auto_pipeline.py: Pass_CriticalPathEval, linearize_graph, OPERATION_CLASS_TIMING_MODEL, cmp_cp_eval_optree, shift_cp_eval_optree"]}
{"id": "C92", "title": "The generated arc tangent is accurate on the whole line", "statement": "The arc tangent that metalibm generates (methods piecewise and single) returns, for every operand of the format, a finite number within a few half units of the arc tangent; the infinities give plus or minus pi/2, a zero is returned with its sign.", "quantifier": "every binary format with at least 10 fraction bits, every polynomial approximation within a given error on [0,1], every non-NaN operand", "why_tests_cant": "The error bound has to hold for all operands of all formats and for every approximation that Sollya may compute; tests sample the operands, and the signed zeros and infinities are not in the sample.", "anchors": ["metalibm_functions/ml_atan.py:MetaAtan.generic_atan2_generate"]}
{"id": "C93", "title": "The generated atan2 returns the angle of the point, with the documented special cases", "statement": "atan2(y, x) generated by metalibm returns, for all operands, the angle of the point (x, y) in (-pi, pi] within a few half units, in all quadrants, on the axes and at the infinities, as the man page quoted in the source says.", "quantifier": "every binary format with at least 10 fraction bits, every approximation of the arc tangent within a given error on [0,1], all pairs of operands", "why_tests_cant": "The quadrant selection depends on signs, magnitudes, zeros and infinities of two operands; the tests draw both from [-5,5], where a null or infinite operand does not occur.", "anchors": ["metalibm_functions/ml_atan.py:MetaAtan.generic_atan2_generate", "metalibm_functions/ml_atan.py:MetaAtan2.generate_scalar_scheme"]}
{"id": "C94", "title": "The generated hyperbolic tangent is accurate, odd and saturates correctly", "statement": "The hyperbolic tangent that metalibm generates is odd, returns the correctly rounded value above the bound it computes from the precision and the number of intervals, stays within the error of its polynomials below, returns +-1 at the infinities, a NaN for a NaN and a zero with its sign.", "quantifier": "every binary format with at least 10 fraction bits, every number of intervals, every pair of polynomial approximations within given errors, every operand", "why_tests_cant": "The saturation bound depends on the format and on the parameters of the generator; the error has to hold for all operands; NaNs and negative zero are not drawn by the tests.", "anchors": ["metalibm_functions/ml_tanh.py:ML_HyperbolicTangent.generate_scalar_scheme"]}
{"id": "C95", "title": "The search of a saturation threshold ends on the documented number", "statement": "Given an increasing function, a limit and two numbers between which the function rounded to the format reaches the limit, the threshold search ends and returns the smallest number of the format where the rounded function reaches the limit; its mirror does the same for a decreasing function and the largest such number.", "quantifier": "every binary format, every real function, every limit, every pair of start and end points meeting the assertions, every number of iterations", "why_tests_cant": "The search is run on a handful of functions at generation time; whether it ends and on which side of the threshold it stops depends on the function, the format and the end points.", "anchors": ["metalibm_core/core/approximation.py:search_bound_threshold", "metalibm_core/core/approximation.py:search_bound_threshold_mirror"]}
{"id": "C96", "title": "The generated cube root is accurate, odd, and total on the special values", "statement": "The cube root that metalibm generates is within a few units of the real cube root for every number, positive or negative, normal or subnormal, returns the infinities and the zeros unchanged and a NaN for a NaN.", "quantifier": "every binary format with 10 to 52 fraction bits, every operand", "why_tests_cant": "The convergence of the iterations depends on the seed of each of the 64 mantissa intervals and on each exponent; the tests draw positive numbers of moderate size.", "anchors": ["metalibm_functions/ml_cbrt.py:ML_Cbrt.generate_scheme"]}
{"id": "C97", "title": "Looking up the implementation of an operation on a target", "statement": "The implementation a target returns for a node and a language is the first one, over its own table and then those of its parent targets, whose condition and interface match the node without being a weak match, or else the first weak match. For the language of the target, an operation is reported as supported exactly when such an implementation exists, and this should hold for every language the target generates code for.", "quantifier": "every table of implementations, every list of parent targets, every node and language", "why_tests_cant": "Tests look up the operations of the functions they generate on the targets that exist; the agreement of the merged map with the lookup is a fact about all nested tables.", "anchors": ["metalibm_core/code_generation/abstract_backend.py: GenericBackend.get_implementation, get_recursive_implementation, is_map_supported_operation, is_supported_operation, generate_supported_op_map, generate_local_op_map, AbstractBackend.DEFAULT_LANGUAGE", "metalibm_core/code_generation/generator_utility.py: MatchResult, ImplemList"]}
{"id": "C98", "title": "The hierarchy of the targets", "statement": "The list of targets in which an implementation is searched contains every ancestor of the target exactly once, and a target comes before the targets it derives from, so that a derived target overrides its bases.", "quantifier": "every finite inheritance graph of targets", "why_tests_cant": "Only a handful of targets exist, all with single inheritance; the order for any user-defined hierarchy is a property of the traversal.", "anchors": ["metalibm_core/code_generation/abstract_backend.py: create_proc_hierarchy, get_parent_proc_class_list, test_is_processor, GenericBackend.__init__"]}
{"id": "C99", "title": "Rounding a pair once to the subnormal grid", "statement": "The generated code that subnormalizes a pair (high part plus low part) before the final scaling, as division does, returns the value of the pair rounded once, to nearest even, to the multiples of the smallest subnormal, so that the final scaling is exact and no double rounding occurs.", "quantifier": "every precision and minimal exponent, every pair with a low part of at most half a unit in the last place, every scale", "why_tests_cant": "Double rounding shows only for pairs next to the middle of two subnormals, which random tests almost never draw.", "anchors": ["metalibm_core/opt/ml_blocks.py: subnormalize_multi", "metalibm_core/opt/p_expand_multi_precision.py: expand_subnormalize", "metalibm_functions/ml_div.py: subnormalize_result"]}
{"id": "C100", "title": "The C function that subnormalizes a double-double", "statement": "The support library function that subnormalizes a double-double for a scale returns the encoding of the number which, scaled, is the pair rounded once to nearest even to the subnormal grid, and its behaviour is defined whenever the scaled number is subnormal.", "quantifier": "every encoding of a normal double, every finite low part of at most half a unit in the last place, every scale", "why_tests_cant": "The function works on bit patterns with two 64-bit arguments and a scale; ties and carries into the exponent are isolated points.", "anchors": ["metalibm_core/support_lib/ml_multi_prec_lib.c: ml_subnormalize_d_dd_i", "metalibm_core/support_lib/ml_support_lib.h: ml_exp_extraction_dirty_fp64", "metalibm_core/code_generation/generic_processor.py: Subnormalize"]}
{"id": "C101", "title": "Factorizing sub-expressions shared between branches", "statement": "After the pass that factorizes sub-expressions shared by the branches of a function, the generated function does on every input what it did before (same value returned, same exceptions raised, no operation fails that was not executed), and a node used in both branches of a conditional is computed once, before it.", "quantifier": "every program of nested blocks, conditionals, switches and loops over shared nodes, every meaning of the operations, every input", "why_tests_cant": "The effect depends on which nodes are shared objects and on the nesting of the branches; tests run the pass on the few functions of the repository, and a guarded operation that fails is seen only on the inputs the guard excludes.", "anchors": ["metalibm_core/opt/p_function_std.py: subexpression_sharing, insert_pre_statement, PassSubExpressionSharing", "metalibm_core/code_generation/generators/c_code_generator.py: generate_expr, open_memoization_level"]}
{"id": "C102", "title": "The error of the bipartite approximation block", "statement": "For every function with a bounded second derivative, every interval and every choice of the three index sizes, the sum of the two table values the block adds is, for every input, within a stated bound of the function; the error the generator reports bounds the error of the block for every input.", "quantifier": "every function with a Lipschitz derivative, every interval, all sizes of the indices and of the tables, every input", "why_tests_cant": "Tests draw inputs of one default configuration (the reciprocal on [1, 2]); the bound for all functions and sizes is an analytic fact.", "anchors": ["metalibm_hw_blocks/bipartite_approx.py: GenericBipartiteApprox.generate_bipartite_approx_module"]}
{"id": "C103", "title": "A function generated for arrays processes every element exactly once", "statement": "The generated array function (fixed number of elements per iteration, or vector-length agnostic) called on a destination, a source and a length ends, stores at each of the first `len` positions of the destination the value the scalar function returns for the element of the source, and writes nothing else, whatever the length, the number of elements per iteration, and the vector length the machine grants at each iteration.", "quantifier": "every array, every length an unsigned 32-bit integer holds, every relative position of the two arrays, every number of elements per iteration, every register size and every choice of granted lengths allowed by the RISC-V specification, every scalar scheme", "why_tests_cant": "the lengths, positions and granted vector lengths are unbounded in number, and a test machine has one vector length and one grant policy", "anchors": ["metalibm_functions/vectorial_function.py: ML_VectorialFunction.generate_scheme", "metalibm_functions/vla_function.py: VLAFunction.generate_scheme", "metalibm_core/core/vla_vectorizer.py: VLAVectorizer.vectorize_scheme, vector_replicate_scheme_in_place, vectorizeFormat", "metalibm_core/core/vla_common.py: VLAOperation, VLAGetLength, VLA_FORMAT_MAP", "metalibm_core/targets/riscv/riscv_vector.py: vlaGetLengthOpGen"]}
{"id": "C104", "title": "The generated softmax", "statement": "For every array, the generated softmax ends and returns, element by element, the exponential divided by the sum of the exponentials, within the accumulated roundings; the result is a number between 0 and 1 for every array of numbers.", "quantifier": "every format, every length, every array, every faithful exponential", "why_tests_cant": "the error depends on every element and on the length; out-of-range sums appear for some arrays only", "anchors": ["metalibm_functions/softmax.py: ML_SoftMax.generate_scheme"]}
{"id": "C105", "title": "The multiply-add with a long accumulator is exact", "statement": "The hardware multiply-add whose accumulator is a fixed-point number covering the whole range of products, fed back with its own output over any sequence of pairs of floating-point numbers, holds the exact sum of the products, without any rounding, for the two encodings of the accumulator and any number of extra digits; d extra digits are enough for about 2^d products.", "quantifier": "every floating-point format, every number of extra digits, every sequence of pairs of numbers of any length, both encodings of the accumulator", "why_tests_cant": "the inputs are sequences of any length of pairs of words and the accumulator has more than 500 bits in binary32", "anchors": ["metalibm_hw_blocks/ml_fixed_mpfma.py: FP_FIXED_MPFMA.generate_scheme, numeric_emulate", "metalibm_core/core/hdl_legalizer.py: mantissa_extraction_modifier", "metalibm_core/core/ml_formats.py: get_bias, get_emax, get_emin_subnormal"]}
{"id": "C106", "title": "A piecewise polynomial approximation evaluates the polynomial of the sub-interval of its input", "statement": "The graph generated for a piecewise polynomial approximation evaluates, for every input of the covered interval, the polynomial stored for a sub-interval which contains the input, at the exact distance from the start of this sub-interval, so that its error is at most the error of this polynomial plus the roundings; the error returned with the tables is the largest one of the sub-intervals, and the tables and the error loaded from a stored approximation are those which were generated.", "quantifier": "every number of sub-intervals, every degree, every list of polynomials, every format, every input of the interval, every rounding with a bounded relative error", "why_tests_cant": "the tables come from Sollya and depend on the function, the interval and the target error; the error must hold for every input", "anchors": ["metalibm_core/core/approximation.py: generate_piecewise_poly_approx_from_params, generate_parameters_piecewise_poly_approx, load_piecewese_poly_params_from_axf", "metalibm_core/core/indexing.py: SubFPIndexing"]}
{"id": "C107", "title": "An approximation stored in a file and loaded again is unchanged", "statement": "An approximation (a polynomial, a piecewise approximation with an indexing or a uniform piecewise one) written by the JSON exporter and read by the importer gives the same approximation: the same coefficients, function, degrees, formats, interval, error with its kind, indexing, parity and tag; a list of approximations gives the list in the same order and a single one is not read as a list; an approximation object can be converted to its stored form.", "quantifier": "every approximation, with any number of pieces and coefficients, every list of approximations", "why_tests_cant": "the pieces, the coefficients and the errors depend on the function being approximated; integer keys become strings and items are reordered in the file", "anchors": ["metalibm_core/utility/axf_utils.py: AXF_SimplePolyApprox, AXF_Polynomial, AXF_GenericPolynomialSplit, AXF_UniformPiecewiseApprox, AXF_JSON_Exporter, AXF_JSON_Importer, AXF_ApproxError"]}
{"id": "C108", "title": "Brain Float conversions, constants and rounding", "statement": "A conversion from the 16-bit Brain Float format to binary32 preserves every datum; a conversion from binary32 rounds toward zero, keeps the infinities and keeps NaNs; converting there and back changes nothing; a constant of the format is the nearest number of the format; rounding a value to the format gives a number of the format.", "quantifier": "every word of both formats, every constant, every value", "why_tests_cant": "there are 2^32 words to narrow and infinitely many constants", "anchors": ["metalibm_core/code_generation/generic_processor.py: legalize_bfloat16_to_float32, legalize_float32_to_bfloat16_trunk", "metalibm_core/core/ml_formats.py: round_to_bfloat16, bfloat16_get_cst, BFloat16_Class"]}
{"id": "C109", "title": "Generated natural logarithm", "statement": "The generated natural logarithm returns the IEEE special values with the right exceptions (NaN, negative numbers, zeros, +infinity), returns +0 for 1, and for every positive number, subnormals included, approximates the logarithm: the error is bounded by two rounding units times the logarithm plus the error of the tabulated reduction.", "quantifier": "every datum of the format, every rounding to nearest, every polynomial of the stated accuracy", "why_tests_cant": "the result depends on every operand of the format, on the ties of the roundings and on the polynomial chosen at generation", "anchors": ["metalibm_functions/generic_log.py: generate_scalar_scheme, generate_log_table, generate_reduced_log, generate_reduced_log_split", "metalibm_core/core/legalizer.py: legalize_reciprocal_seed"]}
{"id": "C110", "title": "Generated integer root", "statement": "The generated root rootn(x, n) returns the IEEE special values for NaN, zeros, infinities, the zeroth root and the even roots of negative numbers; rootn(x, 1) is x, rootn(x, -1) is the correctly rounded reciprocal; for every other order and every finite operand with a real root, subnormal numbers included, its relative error is bounded by a few rounding units plus the error of the logarithm of the mantissa.", "quantifier": "every datum of the format, every order up to 2^63 in magnitude, every polynomial of the stated accuracy, every value of the undefined conversions", "why_tests_cant": "operands times orders are 2^128 pairs in binary64; the split of the exponent by the order depends on every bit of both", "anchors": ["metalibm_functions/rootn.py: MetaRootN.generate_scheme", "metalibm_functions/generic_log.py", "metalibm_functions/ml_exp2.py"]}
{"id": "C111", "title": "Special values and symmetries of the generated cosh, sinh, erf, expm1 and log1p", "statement": "The generated hyperbolic cosine is even and the generated hyperbolic sine and error function are odd, bit for bit; and each of cosh, sinh, erf, expm1 and log1p returns the values of the C standard for the NaNs, the infinities, the two zeros and, for log1p, the numbers below -1 and the pole -1.", "quantifier": "every format, every set of constants and tables of the argument reduction, every polynomial, every datum, every result of an out of range conversion", "why_tests_cant": "the functions are generated for any format with constants and polynomials chosen by an external tool; the claim is about all of them and about all the data, the signed zeros and the subnormal numbers included", "anchors": ["metalibm_functions/ml_cosh.py:ML_HyperbolicCosine.generate_scheme", "metalibm_functions/ml_sinh.py:ML_HyperbolicSine.generate_scheme", "metalibm_functions/erf.py:ML_Erf.generate_scalar_scheme", "metalibm_functions/ml_expm1.py:ML_ExponentialM1_Red.generate_scheme", "metalibm_functions/ml_log1p.py:ML_Log1p.generate_scheme"]}
{"id": "C112", "title": "Register allocation keeps what the program does", "statement": "When the allocator returns an assignment that never gives one physical register to two values needed at the same time, the program with physical registers makes the same stores, takes the same branches, ends in the same way and leaves every result in its result register.", "quantifier": "every linear program of terminated blocks, every list of arguments and results, every assignment the allocator may return, every register content at the start, any number of steps", "why_tests_cant": "the allocator is an external tool whose answer is not fixed, and programs with loops run without bound: the claim is about all programs, all valid assignments and all executions", "anchors": ["metalibm_core/code_generation/asmde_translator.py:AssemblySynthesizer.translate_to_asmde_program", "metalibm_core/code_generation/asmde_translator.py:AssemblySynthesizer.transform_to_physical_reg", "metalibm_core/opt/p_machine_code_gen.py:Pass_RegisterAllocation", "metalibm_core/targets/common/dummy_asm_target.py:DummyArchitecture"]}
{"id": "C113", "title": "The LLVM-IR instructions compute the operations they are selected for", "statement": "For every operation and every formats the LLVM backend declares as supported, the emitted LLVM-IR is accepted by LLVM and computes, for all operands of the formats, the value of the operation in the format of the result.", "quantifier": "every operation and combination of scalar and vector formats of the table, every operand, every lane", "why_tests_cant": "the table crosses twenty operations with twenty formats and the errors are on single operands (a signed zero, a fractional part) or on combinations of formats no test generates", "anchors": ["metalibm_core/targets/common/llvm_ir.py:llvm_ir_code_generation_table", "metalibm_core/targets/common/llvm_ir.py:llvm_negation_function", "metalibm_core/targets/common/llvm_ir.py:generate_comp_mapping", "metalibm_core/targets/common/llvm_ir.py:legalize_vector_reduction_test", "metalibm_core/core/legalizer.py:legalize_fma_to_std"]}
{"id": "C114", "title": "The LLVM-IR text of a function does what its basic blocks do", "statement": "For every function given as basic blocks in static single assignment form, the LLVM-IR text generated for it, started with the same values of the variables, takes the same branches and returns the same value as the blocks, and defines every register at most once, as LLVM requires.", "quantifier": "all lists of basic blocks (phi nodes, assignments of arbitrary operation graphs with shared nodes, branches, returns), all interpretations of the operations, all initial values, all numbers of steps", "why_tests_cant": "The generator keeps one memoization for the whole function and writes operations directly in the variable they are assigned to: whether the text is right depends on the sharing of nodes between statements and blocks and on the path that is run, which no finite set of functions covers.", "anchors": ["metalibm_core/code_generation/generators/llvm_ir_code_generator.py: LLVMIRCodeGenerator.generate_expr, generate_code_assignation", "metalibm_core/code_generation/generator_utility.py: FunctionOperator.generate_expr (result_var)"]}
{"id": "C115", "title": "The check passes accept a graph exactly when every node passes the check", "statement": "A check pass (of the precisions, or of the support of the operations by a target in a language) accepts an operation graph exactly when every node of the graph passes the check, on any graph and however often the pass is executed.", "quantifier": "all operation graphs (with sharing and, for the generic check, cycles), all checks and support tables, all languages, all sequences of executions of a pass", "why_tests_cant": "The passes memoize nodes while they traverse graphs of any shape; whether a failing node is reported depends on the order of the traversal, on what was visited before and on the language, for every graph.", "anchors": ["metalibm_core/opt/p_check_precision.py: Pass_CheckGeneric.execute, Pass_CheckPrecision", "metalibm_core/opt/p_check_support.py: check_target_support, Pass_CheckSupport.execute"]}
{"id": "C116", "title": "The fixed-point operations of a generated circuit compute the exact value when it fits", "statement": "In the hardware generated for a fixed-point operation (addition, subtraction, multiplication, negation, conversion, shift, comparison), the signal of the result stands for the exact result of the operation on the numbers its operands stand for, without the fraction bits the format of the result does not have, whenever that format can hold it; a comparison gives the comparison of the two numbers.", "quantifier": "all fixed-point formats of the operands and of the result (sizes and signedness), all contents of the operand signals, all shift amounts", "why_tests_cant": "The number of formats and of contents is unbounded; each operation extends, selects and reinterprets bits differently according to the formats of the operands and of the result.", "anchors": ["metalibm_core/code_generation/vhdl_backend.py: fixed_point_op_modifier, fixed_point_mul_modifier, fixed_point_negation_modifier, fixed_conversion_modifier, fixed_comparison_modifier, adapt_fixed_optree, fixed_shift_modifier, shift_by_cst_legalizer", "metalibm_hw_blocks/rtl_blocks.py: zext, sext, rzext"]}
{"id": "C117", "title": "The evaluation errors obtained through Gappa cover what the machine does", "statement": "When a user asks for the evaluation error of an operation graph over given variable intervals, the interval that is returned contains the difference (absolute or relative) between the number the graph computes in floating-point arithmetic and the number it stands for in exact arithmetic, for all values of the variables in their intervals; split into cases, each case is covered by its own interval and the variables are left as they were; and the interval asked for a node contains every number that the node computes.", "quantifier": "all operation graphs of additions, subtractions, multiplications, divisions, fused operations, negations, conversions and roundings to an integer, with any sharing and any tags; all intervals and error bounds of the variables; all values in them; all roundings; all right answers of the tool to the script", "why_tests_cant": "A returned interval is checked by looking at it, or at a few inputs; whether the script that is given to the tool says what the graph computes can only be settled for all graphs, names and inputs at once. A wrong script gives intervals that look plausible, and too good.", "anchors": ["metalibm_core/code_generation/gappa_code_generator.py: GappaCodeGenerator.generate_expr, get_eval_error, get_eval_error_v2, get_eval_error_v3, get_interval_code", "metalibm_core/code_generation/generic_processor.py: gappa_code_generation_table", "metalibm_core/code_generation/generator_utility.py: RoundOperator, SymbolOperator, build_simplified_operator_generation", "metalibm_core/code_generation/code_object.py: GappaCodeObject", "metalibm_core/core/ml_optimization_engine.py: exactify_rule, exactify"]}
{"id": "C118", "title": "Multi-word polynomial implementations keep to the error asked for", "statement": "When a user asks for the implementation of a polynomial with a relative error target in a multi-word context, every rounded coefficient is within the error asked for it and the format chosen for it holds it exactly; the format of an accuracy is the smallest one with that accuracy; the conversion of the variable is within its share of the error; an implementation whose operations keep to the errors required of them computes the polynomial within the target; and the block chosen for an operation accepts its operands, keeps to the error, is the cheapest such block and is recorded with the descriptor of its own result.", "quantifier": "all polynomials of all degrees and all rational coefficients; all targets; all values of the variable; all roundings to binary64; all errors within those required of the operations; all lists of blocks and descriptors", "why_tests_cant": "The error of an implementation is the worst one over all inputs and all roundings of all operations. A test evaluates a polynomial at some points with a given arithmetic and sees an error that is below the target by luck.", "anchors": ["metalibm_core/core/implementpoly.py: MLL_Context.roundConstant, get_ml_format_from_accuracy, computeConstantFormat, computeNeededVariableFormat, compute_output_format, get_mul_error_budget, mll_implementpoly_horner"]}
{"id": "C119", "title": "The fast sine and cosine are close to the functions", "statement": "The generated fast sine or cosine returns, for every input of the interval it was generated for, a number that differs from the sine or cosine of the input by at most the two approximation errors and a few units of the fixed-point format.", "quantifier": "all inputs of the interval; all intervals and all table sizes; all tables rounded up or down; all coefficients with their approximation errors; both functions", "why_tests_cant": "The function has as many inputs as a binary32 format and depends on the interval and the table size. A test of some inputs does not see the signs, the ends of the interval and the inputs near 0 for all parameters.", "anchors": ["metalibm_functions/ml_fast_sincos.py: ML_FastSinCos.generate_scheme, generate_cos_scheme, generate_sin_scheme", "metalibm_core/targets/common/fixed_point_backend.py: add_modifier, sub_modifier, mul_modifier, conv_modifier"]}
{"id": "C120", "title": "Vectors of booleans have the truth value of the expression in every lane", "statement": "The generated vector code of a boolean expression (comparisons, tests, negations, conjunctions, disjunctions, assembled scalars) has, in each lane, a value that is true exactly when the expression is true for the lanes of the operands, and the tests that all, some or no lanes are true answer accordingly.", "quantifier": "all boolean expressions; all vectors of operands; all numbers of lanes and lane widths; both targets (C and OpenCL)", "why_tests_cant": "A wrong lane is seen only for the combination of operator, width and values that makes a mask with other bits than 0 and -1; the expressions are unbounded.", "anchors": ["metalibm_core/targets/common/vector_backend.py: COMPARATOR_SYMBOL_MAP, vector_c_code_generation_table, vector_opencl_code_generation_table", "metalibm_core/support_lib/ml_support_lib.h: ml_is_vmask*, ml_vec_assembling_*_bool, ML_VSELECT", "metalibm_core/opt/p_vector_mask_test_legalization.py: VectorMaskTestExpander.expand_node", "metalibm_core/opt/opt_utils.py: logical_reduce"]}
{"id": "C121", "title": "Operations on vectors compute every lane like the scalar operation", "statement": "For every operation on vectors that the C backend supports (arithmetic, bitwise operations, shifts, fused multiply-add, conversions, casts, rounding, exponents and mantissas, table accesses), the generated code is valid and each lane of its result is the scalar operation on the lanes of the operands.", "quantifier": "all operations, lane formats and numbers of lanes that the backend accepts; all operands; whatever the result variable held before", "why_tests_cant": "There are more than two hundred entries, each with its own number of lanes and function; a lane that is not written keeps an old value that can be right by chance in a test.", "anchors": ["metalibm_core/targets/common/vector_backend.py: vector_c_code_generation_table", "metalibm_core/support_lib/ml_support_lib.h: VECTORIZE_OP1, ML_VCONV, ML_VLOAD, ML_VLOAD2D, DEF_ML_VECTOR_PRIMITIVES_FUNC3, DEF_ML_VECTOR_NONUN_FUNC_OP1", "metalibm_core/code_generation/abstract_backend.py: get_implementation"]}
{"id": "C122", "title": "The hardware reciprocal circuit returns the rounded reciprocal of its input", "statement": "The generated reciprocal circuit (FP_Divider) returns, for every floating-point input, the number of the format that is nearest to the reciprocal of the input; zeros, infinities and NaN give infinities, zeros and NaN, and the circuit exists for every format that the option --precision accepts.", "quantifier": "every input word (all signs, exponents and significands), every table of initial approximations whose entries are within one unit of the exact value", "why_tests_cant": "The test bench draws a few random inputs; the last bit is wrong for seventeen significands out of eight millions, and whether the narrow formats of the intermediate errors overflow depends on all the bits of the significand.", "anchors": ["metalibm_hw_blocks/ml_fp_div.py: FP_Divider.generate_scheme", "metalibm_hw_blocks/ml_fp_div.py: FP_Divider.generate_NR_iteration"]}
{"id": "C123", "title": "The C functions on pairs of doubles are exact or accurate to 2^-101", "statement": "The functions of the C support library that generated code calls for double-double operations do what their header says. Splitting a double or a float gives two non-overlapping halves that add up to it. The sum and the product of two doubles are returned exactly as a pair. Adding a double to a pair, or two pairs, and multiply-add with a pair result, are accurate to a few units of 2^-103 whatever the signs and the amount of cancellation, and return a normalised pair. ml_fma returns the correctly rounded x*y+z.", "quantifier": "all doubles (subnormal ones included), all normalised pairs of doubles, every rounding to nearest whatever its tie rule, every selection of function by operand formats", "why_tests_cant": "The operands range over pairs of 64-bit numbers, failures need a tie after a first rounding, an exact cancellation, an underflowing product or an operand near the overflow threshold; the tests evaluate a handful of values.", "anchors": ["metalibm_core/support_lib/ml_multi_prec_lib.c: ml_split_dd_d, ml_split_dd_d_safe, ml_split_ds_s, ml_mult_dd_d2, ml_add_dd_d2, ml_add_dd_d2_fast, ml_add_dd_d_dd, ml_add_dd_dd2, ml_fma, ml_fma_dd_d3", "metalibm_core/support_lib/ml_multi_prec_lib.h", "metalibm_core/code_generation/generic_processor.py: Addition, Multiplication, FusedMultiplyAdd, Split tables"]}
{"id": "C124", "title": "The code of RISC-V vector operations computes the operations, lane by lane", "statement": "For an expression of vector operations on the RISC-V vector target, whatever its size, the generated C expression compiles and yields in each lane below the vector length what the operations define there, whatever the lanes beyond hold: additions, subtractions, products, remainders, logical operations, shifts, fused operations, selections, comparisons, casts, minima and maxima, on vectors and scalars. Rounding to integers is right for the numbers whose rounded value is a signed integer of the width. An indexed load reads the element of its index. The reciprocal seed table gives the reciprocal within 2^-7.", "quantifier": "every expression of operations of the target's table, every vector length, every lane, all operand values, every floating-point unit with the usual exactness properties; every real in [1,2) for the table", "why_tests_cant": "Tests run a few expressions on an emulator with a few vectors; the table has more than a hundred combinations of operations and operand formats, several are rewritten into others before code is emitted, and each must be right for all values and all nestings.", "anchors": ["metalibm_core/targets/riscv/riscv_vector.py:rvv64_CCodeGenTable", "metalibm_core/targets/riscv/riscv_vector.py:swapOperand", "metalibm_core/targets/riscv/riscv_vector.py:expandOpSplat", "metalibm_core/targets/riscv/riscv_vector.py:typeCastInput", "metalibm_core/targets/riscv/riscv_vector.py:RVV_legalizeIntConversion", "metalibm_core/targets/riscv/rvv_legalization.py:Pass_RVV_Legalization.legalizeNode", "metalibm_core/targets/riscv/rvv_table.py:rvv_vfrec7_table_ctor"]}
{"id": "C125", "title": "The generated integer power of two returns 2^x", "statement": "For every binary floating-point format, every signed integer format wide enough for the biased exponents and not wider than the format, and every input x, the function generated by fast_exp2i returns 2^x: exactly when x is the exponent of a normal number. What the code does: it returns the power of two of x limited to the exponents of the normal numbers, so it is exact for exactly these x; below them it returns the smallest normal number although 2^x is a number of the format, and above them it returns a finite number although 2^x exceeds every number of the format. Once the pass basic_legalization has expanded the exponent insertion, the bias is added twice and the function returns 2^x for no x at all.", "quantifier": "all binary formats with at least two exponent bits, all integer widths between the exponent size plus one and the width of the format, all inputs", "why_tests_cant": "The claim is about every integer input of every pair of formats; the tests generate inputs in an interval of normal exponents and do not combine the function with the legalization pass.", "anchors": ["metalibm_functions/fast_exp2i.py:FastExp2i.generate_scalar_scheme", "metalibm_core/opt/p_basic_legalization.py:BasicExpander.expand_node", "metalibm_core/core/legalizer.py:generate_exp_insertion", "metalibm_core/support_lib/ml_support_lib.h:ml_exp_insertion_no_offset_fp32"]}
{"id": "C126", "title": "Vector promotion keeps formats and values, never stops, and promotes what the target implements", "statement": "For every target description (promoted formats, table formats, implemented operations) whose promoted formats mean the same lanes as the generic formats, and for every function body, the vector promotion pass ends without error and returns the same body on new expressions: each has the format and, for all values of the variables, the value of the initial one; each of its operations is an initial operation, moved to the promoted formats exactly when all its formats have one, it is not an element selection nor a call and the target implements it there, or a conversion between a format of the expression and its promoted format.", "quantifier": "all targets, all meanings of the operations compatible with the promotion, all expressions and statements of any depth, all values of the variables", "why_tests_cant": "The tests run the pass on a few functions and two translation tables; the claim is about every graph and every table, including the mixed graphs in which only some operations can be promoted.", "anchors": ["metalibm_core/opt/p_vector_promotion.py:Pass_Vector_Promotion.promote_node", "metalibm_core/opt/p_vector_promotion.py:Pass_Vector_Promotion.does_target_support_promoted_op", "metalibm_core/opt/p_vector_promotion.py:insert_conversion_when_required"]}
{"id": "C127", "title": "The run-time error report covers every node once, with its exact value", "statement": "For every acyclic operation graph, every mapping of nodes to values and every root below which each leaf is a constant or a given node, the generator of the run-time error report ends without failure and makes exactly one report for each node reachable from the root without crossing a given node, and none for other nodes; the expected value in a report is the exact value of its node (the one obtained by applying the exact function of each operation to the exact values of its operands, the given nodes having the given values), whatever sharing there is in the graph.", "quantifier": "all acyclic graphs of any size and sharing, all mappings of given nodes, all roots, all exact functions of the operations", "why_tests_cant": "The unit test runs one graph; the claim is about every sharing pattern and every choice of given nodes, where a missed memoization entry would make the generator fail or report a stale value.", "anchors": ["metalibm_core/opt/runtime_error_eval.py:generate_error_eval_graph", "metalibm_core/opt/runtime_error_eval.py:evaluate_graph_value", "metalibm_core/opt/runtime_error_eval.py:generate_node_eval_error"]}
{"id": "C128", "title": "Boolean vectors get lanes of the width of what they compare", "statement": "The legalization of boolean vectors gives every mask of every graph boolean lanes of the width of the lanes of its operands, changes nothing else, ends without error, and changes nothing when run again. What the code does: this holds for all graphs whose numbers have one lane width, 32 or 64 bits; a connective of a 32-bit and a 64-bit mask gets 64-bit lanes while an operand keeps 32-bit lanes; tests outside its list stay without a width; lanes of other widths stop the pass; an assembling looks at its first two operands only.", "quantifier": "all graphs of any depth, all vector sizes of the type map, all lane widths", "why_tests_cant": "Unit tests vectorize a few functions with one width; the claim is about every graph, including mixed widths and every test.", "anchors": ["metalibm_core/opt/p_vbool_legalization.py:VirtualBoolVectorLegalizer.legalize_node", "metalibm_core/opt/p_vbool_legalization.py:is_virtual_bool_node", "metalibm_core/opt/node_transformation.py:Pass_NodeTransformation.transform_graph", "metalibm_core/core/ml_formats.py:VECTOR_TYPE_MAP"]}
{"id": "C129", "title": "Code generated from an expression computes the expression", "statement": "For every expression over the function arguments, constants, operators, divisions and calls to the known functions, with any sharing of sub-expressions, the function generated from it declares each local result once, assigns it before any use, contains no call (and no division when divisions are expanded) and returns the value of the expression for all arguments, provided each inlined implementation computes its function. An expression is accepted exactly when, with each variable it uses, it uses all the variables before it in x, y, z, t; in particular x + z is refused. The reference value of atan2 is the angle of the point exactly in the right half-plane.", "quantifier": "all acyclic operation graphs, all meanings of operations and functions, all arguments, both settings of the division expansion; all expressions; all points with non-zero abscissa", "why_tests_cant": "expressions are unbounded and sharing makes the order of the statements depend on the whole graph", "anchors": ["metalibm_functions/function_expr.py:FunctionExpression.instanciate_graph", "metalibm_functions/function_expr.py:instanciate_fct_call", "metalibm_functions/function_expr.py:count_expr_arity", "metalibm_functions/function_expr.py:function_parser", "metalibm_functions/function_map.py:FUNCTION_MAP"]}
{"id": "C130", "title": "Tagging passes: every node tagged, which tags can coincide, and what the debug list switches on", "statement": "On every group of functions the tagging pass ends, gives a tag to every node of every function, keeps the tags given by the user and changes no other node. Two nodes tagged by the pass have the same tag only when their classes differ and bear the same name; when class names are all different and no user tag has the form name_number, every node has its own tag. The debug pass switches on exactly the nodes of the function whose tag is listed, treats the others as the option asks and leaves all other nodes alone.", "quantifier": "all acyclic graphs with any sharing, all class names, all user tags, all lists of functions; all lists of debug tags", "why_tests_cant": "graphs and groups of functions are unbounded and the numbering depends on the whole history of the pass", "anchors": ["metalibm_core/opt/p_tag_node.py:Pass_TagNode.tag_node", "metalibm_core/opt/p_tag_node.py:Pass_TagNode.get_new_tag", "metalibm_core/opt/p_tag_node.py:Pass_DebugTaggedNode.enable_debug"]}
{"id": "C131", "title": "Fixed-point logarithm: the two-step argument reduction is exact and stays within its tables and its 64 bits", "statement": "For every size and precision of the two tables and every significand of the format, the reduction of the fixed-point logarithm reads the leading bits as indices, multiplies by the rounded up inverses without losing a bit, splits the logarithm into the sum of three, and leaves a non-negative reduced argument below 2^-size2 + y 2^-prec2. Table lengths taken from any true bound of the indices leave no index outside. With the parameters in use, 64 and 67 entries are enough, the tables fit the memory limit and the reduced argument is a 64-bit number which the generated datapath computes exactly if the tables hold the inverses. The generated function should return the logarithm for every argument.", "quantifier": "all table sizes and precisions, all 52-bit significands, all exponents, all table contents and polynomials", "why_tests_cant": "2^52 significands times every choice of four parameters; the reduction must be exact for each one", "anchors": ["metalibm_functions/ml_log_fixed64.py:MetaFixedLog.eval_argument_reduction", "metalibm_functions/ml_log_fixed64.py:MetaFixedLog.evaluate_argument_reduction", "metalibm_functions/ml_log_fixed64.py:MetaFixedLog.generate_argument_reduction", "metalibm_functions/ml_log_fixed64.py:MetaFixedLog.generate_scheme"]}
{"id": "C132", "title": "Vectorizable logarithm: integer subnormal handling, reciprocal rounding and table index add up to the logarithm", "statement": "For every positive finite number, subnormal or not, the branch-free integer code of the vectorizable logarithm finds a normal number and a count such that the first is the argument times two to the count. For every table size, radix and reciprocal within 2^-(t+2) of the inverse of the mantissa, the rounded reciprocal is in [1/2, 1], its index falls inside the table, the reduced argument is inside the interval the polynomial is built for, and the corrected exponent, the logarithm of one plus the reduced argument and the table entry add up exactly to the logarithm. This should hold for both precisions and for scalar and vector backends, and zero should not be treated as a subnormal number.", "quantifier": "all binary formats wide enough, all positive finite patterns, all table sizes below the field size, all index limits, all radices, all reciprocals within the bound", "why_tests_cant": "2^64 arguments times every reciprocal the hardware may return", "anchors": ["metalibm_functions/ml_vectorizable_log.py:ML_Log.generate_scheme", "metalibm_functions/ml_vectorizable_log.py:DirtyExponentExtraction", "metalibm_functions/ml_vectorizable_log.py:bool_convert"]}
{"id": "C133", "title": "Hardware-to-software format pass: every bit pattern keeps its meaning, shared tables are translated once", "statement": "On every group of functions the pass which replaces hardware formats by software formats ends. Each bit, hardware fixed-point number and vector of bits becomes a software fixed-point number with as many bits, in which every bit pattern stands for the same number, and a C type large enough exists exactly from 1 to 128 bits. Each operation of the functions and each table format met, shared or not, is translated once; everything else is left alone; running the pass again changes no format; each function keeps its scheme.", "quantifier": "all formats of all sizes, all bit patterns, all acyclic graphs with any sharing of nodes and of table formats, all lists of functions", "why_tests_cant": "graphs, sizes and sharing patterns are unbounded", "anchors": ["metalibm_core/opt/p_legalize_rtl_to_sw_format.py:legalize_rtl_to_sw_format", "metalibm_core/opt/p_legalize_rtl_to_sw_format.py:Pass_ExhaustiveSearch.execute_on_optree", "metalibm_core/opt/p_legalize_rtl_to_sw_format.py:Pass_LegalizeRTLtoSWFortmat.execute_on_node", "metalibm_core/core/passes.py:FunctionPass.execute_on_function", "metalibm_core/core/ml_table.py:ML_NewTable"]}
{"id": "C134", "title": "Turning an expression into a function: the call computes the expression, the original graph is left alone", "statement": "A function can be made from every expression whose result format is known. Its parameters are the arguments in order, with their formats. Called with any values of the arguments it returns the value of the expression in which the arguments have these values; replacing the expression by the call changes no result. The original graph is not modified and shares with the function only input variables and constant tables. Parameters have different names.", "quantifier": "all expression graphs with any sharing, all lists of arguments (any nodes, repeated or nested), all values, all interpretations of the operations", "why_tests_cant": "graphs, argument lists and values are unbounded", "anchors": ["metalibm_core/core/ml_call_externalizer.py:generate_function_from_optree", "metalibm_core/core/ml_call_externalizer.py:CallExternalizer.externalize_call", "metalibm_core/core/ml_operations.py:GeneralOperation.copy", "metalibm_core/core/ml_operations.py:AbstractVariable.copy", "metalibm_core/code_generation/code_function.py:CodeFunction.add_input_variable"]}
{"id": "C135", "title": "Reports: an error never returns, a message is shown exactly when asked for, and showing it has no effect", "statement": "A report at the error level never returns to the caller, whatever the configuration, message and arguments. A message is written exactly when one of the enabled levels asks for it, with its arguments in place; levels stay enabled. A report at any other level returns, so the choice of the levels shown has no effect on the generation.", "quantifier": "all configurations, all sequences of enabled levels, all levels, messages and arguments", "why_tests_cant": "configurations, histories and message texts are unbounded", "anchors": ["metalibm_core/utility/log_report.py:Log.report", "metalibm_core/utility/log_report.py:Log.filter_log_level", "metalibm_core/utility/log_report.py:Log.LogLevelFilter.match", "metalibm_core/utility/log_report.py:Log.enable_level"]}
{"id": "C136", "title": "Unifying pipeline stages keeps the known stages, leaves none undefined and never places an operand after its user", "statement": "Unifying the stages of a hardware design keeps every stage which is already known and does not touch nodes outside the design. A node without a stage gets the stage of one of its users, so that every node has one as soon as the root has one. No operand is placed in a later stage than one of its users when the known stages are in order. Run as a pass, it only gives numbers.", "quantifier": "all operation graphs, shared nodes included, all choices of the known stages", "why_tests_cant": "graphs and placements of stages are unbounded", "anchors": ["metalibm_core/opt/p_rtl_pipeline.py:optree_set_undefined_stage", "metalibm_core/opt/p_rtl_pipeline.py:unify_stages_rec", "metalibm_core/opt/p_rtl_pipeline.py:Pass_UnifyPipelineStages.execute"]}
{"id": "C137", "title": "Groups of functions: a pass reaches every function once, merging loses nothing, and the main function reports every failed check", "statement": "A pass over a group of functions is applied exactly once to each function which is not external, sub-functions first, functions added on the way included. Merging a group into another adds its functions, changes nothing else, and every name which was known keeps naming the same function. The generated file declares each of these functions before any definition and defines each once. The generated main function calls every test and benchmark wrapper whatever they return, and returns 0 exactly when no check fails.", "quantifier": "all groups, shared lists included, all routines, histories of merges, checks and outcomes", "why_tests_cant": "groups, routines which add functions, and outcomes of wrappers are unbounded", "anchors": ["metalibm_core/code_generation/code_function.py:FunctionGroup", "metalibm_core/core/ml_function.py:ML_FunctionBasis.generate_C_code", "metalibm_core/core/ml_function.py:ML_FunctionBasis.instrument_function_group", "metalibm_core/core/ml_function.py:ML_FunctionBasis.generate_output"]}
{"id": "C138", "title": "Building hardware entities: nodes are in the stage the entity has reached, ports are those added, with distinct reserved names", "statement": "A node made while an entity is built is placed in the current stage of that entity, that is the number of stages it has started, and stays there. The entity declares exactly the inputs and outputs which were added, in order, no two of them with the same name, and each output has the value last given to it. The names of the ports are reserved, so that no internal signal takes them.", "quantifier": "all histories of entities, nodes, stages, inputs and outputs", "why_tests_cant": "histories are unbounded, several entities can be built at the same time", "anchors": ["metalibm_core/code_generation/code_entity.py:CodeEntity", "metalibm_core/core/attributes.py:Attributes.add_dyn_attribute", "metalibm_core/core/attributes.py:AttributeCtor.attr_init", "metalibm_hw_blocks/ml_fp_mpfma.py:FP_MPFMA.generate_scheme"]}
{"id": "C139", "title": "Instances of components are wired to their operands, and their components are declared", "statement": "Each instance of a component gets an identifier which no other instance of this component has. Whatever operands are replaced afterwards and in which order, the port map generated for an instance wires each input port to the present operand of the instance for this port and each output port to the signal given at creation; a port which the component does not have is refused and every input of the component is wired. The component declared in the generated design under the name of an instance is the component of the instance.", "quantifier": "all components, dictionaries of ports, positional operands, and histories of instantiations and operand replacements", "why_tests_cant": "Histories and port dictionaries are unbounded, and a stale or shared port map only shows for particular orders of instantiation and rewriting.", "anchors": ["metalibm_core/core/ml_hdl_operations.py: ComponentInstance.__init__, ComponentInstance.set_input, ComponentObject", "metalibm_core/code_generation/vhdl_code_generator.py: generate_expr (ComponentInstance)", "metalibm_core/code_generation/code_object.py: declare_component_name"]}
{"id": "C140", "title": "Removing the operations on floating-point flags changes nothing but the flags", "statement": "For the targets without support of the floating-point environment, the lowering of exceptions turns each program into one which ends for the same inputs, with the same memory and the same returned value, and which neither raises nor clears a flag; no operation on flags is left for the code generator.", "quantifier": "all programs built from assignments, conditions, loops, returns and operations on flags, all memories and all executions, ending or not", "why_tests_cant": "Programs, loops and executions are unbounded; a dropped statement beside a removed operation only shows on the paths which execute it.", "anchors": ["metalibm_core/opt/p_lower_exception.py: EXCEPTION_LOWERING_TABLE, RemoveOperation, ExceptionLowering", "metalibm_core/opt/generic_lowering.py: LoweringEngine.lower_node, GenericLoweringBackend.get_operation_keys", "metalibm_core/core/ml_operations.py: RaiseException, ClearException"]}
{"id": "C141", "title": "Scalar booleans get the width of what they depend on", "statement": "The legalization of scalar booleans only changes formats of boolean operations: the operations, their operands and the widths of numbers stay. Each boolean operation of the classes it handles gets a width, the greatest of the widths of the numbers and typed booleans it depends on, and operands and result of a connective have the same width. It succeeds on every expression and returns the expression.", "quantifier": "all expressions over numbers and booleans of any depth and all widths", "why_tests_cant": "Expressions are unbounded and mix widths and classes of operations in any order; a wrong width only shows in particular mixtures.", "anchors": ["metalibm_core/opt/p_scalar_vbool_legalization.py: VirtualScalarBoolLegalizer.legalize_node, is_legalizable, Pass_VirtualScalarBoolLegalization.execute", "metalibm_core/opt/node_transformation.py: Pass_NodeTransformation.transform_graph, execute_on_optree"]}
{"id": "C142", "title": "The tables which a graph uses are found exactly", "statement": "The search for the tables of a graph ends on every graph and gives exactly the tables which the root uses through operations, each once, whatever operands are shared; so a function made from a part of a graph shares every constant table it uses with the original and no other.", "quantifier": "all finite graphs, with any sharing and cycles, and all roots", "why_tests_cant": "Graphs are unbounded; a missed table behind a shared operand only shows for particular shapes.", "anchors": ["metalibm_core/opt/opt_utils.py: extract_tables", "metalibm_core/core/ml_call_externalizer.py: generate_function_from_optree"]}
{"id": "C143", "title": "The generated arc cosine is accurate on its domain and NaN elsewhere", "statement": "For every input in [-1, 1] the arc cosine function generated returns a number within the accuracy of the arc cosine, and for every other input, infinities and NaN included, it returns a NaN.", "quantifier": "all floating-point inputs and all accuracies", "why_tests_cant": "It is a statement about all inputs; the tests of the repository only check that code is generated.", "anchors": ["metalibm_functions/ml_acos.py: ML_Acos.generate_scheme"]}
{"id": "C144", "title": "A fixed-point number is displayed as itself, whatever formats were created before", "statement": "For every history of created fixed-point formats, the debug and test display of a format is a well-formed printf call which writes its real value and its integer code (or the words of it), so that the code can be read back from the text.", "quantifier": "all integer and fraction sizes, signs, all codes, all sequences of formats created earlier in the run", "why_tests_cant": "Display formats are kept in a map shared by the whole run: the result depends on the history of formats, and on every code.", "anchors": ["metalibm_core/core/ml_formats.py: ML_Base_SW_FixedPoint_Format.build_display_format_object", "metalibm_core/core/display_utils.py: multi_word_fixed_point_beautify, fixed_point_beautify"]}
