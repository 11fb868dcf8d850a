{"id": "C01", "title": "Emitted floord/ceild/max/min macros are exact", "statement": "The macro texts printed at the head of a generated C file compute, for every dividend n and every divisor d > 0, the mathematical floor(n/d) and ceil(n/d), and max/min of their arguments; no other rounding ever occurs.", "quantifier": "all integers n, all d > 0, all pairs x,y (ideal integers); plus, for machine ints, all n,d for which no intermediate value overflows", "why_tests_cant": "Two unbounded integer arguments; the interesting inputs are sign/remainder combinations and extreme values, and a finite table of samples cannot exclude a wrong remainder class.", "anchors": ["source/program.c:print_macros", "source/pprint.c:pprint_binary"]}
{"id": "C02", "title": "Fixed-width integer division macros agree with GMP", "statement": "In a build with machine integers, the floor quotient, floor remainder and ceiling quotient used everywhere in code generation are the same functions as the ones used in a GMP build: q = floor(i/j), 0 <= r < j, i = q*j + r, c = ceil(i/j).", "quantifier": "all integers i and all j > 0", "why_tests_cant": "The domain is infinite and correctness depends on the residue class and sign of i modulo j.", "anchors": ["include/cloog/int.h.in:cloog_int_fdiv_q", "include/cloog/int.h.in:cloog_int_fdiv_r", "include/cloog/int.h.in:cloog_int_cdiv_q"]}
{"id": "C03", "title": "GCD and row normalisation keep the constraint's meaning", "statement": "cloog_gcd returns the non-negative greatest common divisor of its arguments; cloog_seq_gcd returns the gcd of a whole row (0 for a zero row); cloog_seq_normalize replaces a row by a proportional row whose entries have gcd 1 (or 0), with the same signs and therefore exactly the same solution set.", "quantifier": "all integer rows of any length, all integer pairs", "why_tests_cant": "Termination and maximality of the divisor range over all rows.", "anchors": ["source/int.c:cloog_gcd", "source/int.c:cloog_seq_gcd", "source/int.c:cloog_seq_normalize", "source/int.c:cloog_seq_scale_down"]}
{"id": "C04", "title": "Comparing two numbers is exact in every integer configuration", "statement": "cloog_int_cmp (and everything built on it: expression equality, scalar-dimension ordering, loop collapsing) returns a value whose sign is the order of its two arguments.", "quantifier": "all pairs of values of the configured integer type", "why_tests_cant": "Failures occur only for pairs whose difference overflows or is truncated to int; random small tests never reach them.", "anchors": ["include/cloog/int.h.in:cloog_int_cmp", "source/clast.c:clast_term_cmp", "source/clast.c:clast_binary_cmp", "source/loop.c:cloog_loop_constant_cmp"]}
{"id": "C05", "title": "A single constraint yields the exact integer bound", "statement": "The expression clast_bound_from_constraint builds for a constraint and one of its variables evaluates, in every environment, to the tightest integer bound: an integer value of the variable satisfies the inequality iff it is >= (positive coefficient) / <= (negative coefficient) the expression's value; for an equality the value equals the expression's value whenever an integer solution exists. NULL is returned iff the constraint does not involve the variable.", "quantifier": "all constraint rows (any number of iterators and parameters, any coefficients), all values of all variables", "why_tests_cant": "Quantifies over every affine row and every environment, and over truncation directions for constants.", "anchors": ["source/clast.c:clast_bound_from_constraint"]}
{"id": "C06", "title": "Loop bounds scan exactly the constrained values", "statement": "The lower bound and upper bound expressions attached to a generated for loop are such that, for every value of outer iterators and parameters, the integers between them are exactly the integers satisfying all inequality constraints that involve the loop variable; a bound is absent iff there is no constraint on that side.", "quantifier": "all constraint sets, all levels, all environments", "why_tests_cant": "The statement is about every polyhedron and every environment.", "anchors": ["source/clast.c:clast_minmax", "source/clast.c:valid_bound", "source/clast.c:collect_bounds", "source/clast.c:insert_for"]}
{"id": "C07", "title": "Stride adjustment of a constant lower bound", "statement": "Adjusting a constant lower bound to a stride returns the least integer >= the bound congruent to the offset modulo the stride; doing it again changes nothing; stepping by the stride from it visits exactly the congruent values at or above the original bound.", "quantifier": "all bounds, all offsets, all strides > 0", "why_tests_cant": "Infinite arithmetic domain.", "anchors": ["source/clast.c:update_lower_bound", "source/isl/domain.c:cloog_domain_stride_lower_bound"]}
{"id": "C08", "title": "Expressions reported equal have equal values", "statement": "If clast_expr_equal says two expressions are equal then they evaluate to the same value in every environment; and an expression is equal to itself and to its copy.", "quantifier": "all pairs of clast expression trees, all environments", "why_tests_cant": "Recursive over unbounded trees; used to collapse a loop into an assignment.", "anchors": ["source/clast.c:clast_expr_cmp", "source/clast.c:clast_expr_equal", "source/clast.c:clast_reduction_cmp", "source/clast.c:clast_expr_copy"]}
{"id": "C09", "title": "The expression comparator is a consistent order", "statement": "The comparison callback handed to qsort for bounds and guards is a total preorder (reflexive, antisymmetric in sign, transitive), as the C standard requires for qsort to have defined behaviour.", "quantifier": "all triples of clast expressions", "why_tests_cant": "A transitivity violation needs a specific triple of tree shapes.", "anchors": ["source/clast.c:clast_expr_cmp", "source/clast.c:qsort_expr_cmp", "source/clast.c:clast_reduction_cmp"]}
{"id": "C10", "title": "A loop is dropped only when it never executes", "statement": "insert_for suppresses a loop only if, in every environment, no integer lies between its lower and upper bound; it replaces a loop by an assignment only if in every environment the loop would execute exactly once.", "quantifier": "all pairs of bound expressions, all environments", "why_tests_cant": "Semantic equivalence over all environments.", "anchors": ["source/clast.c:clast_expr_is_bigger_constant", "source/clast.c:insert_for", "source/clast.c:insert_otl_for"]}
{"id": "C11", "title": "Guards are true exactly when the unscanned constraints hold", "statement": "The if-condition emitted in front of a loop or statement is true in an environment iff every constraint of the domain that does not involve the scanned iterator holds; when nothing is emitted those constraints hold always.", "quantifier": "all constraint sets (with equalities), all levels including 0 and leaf level, all environments", "why_tests_cant": "Each guard groups constraints into min/max by first involved variable; correctness over arbitrary sets is not enumerable.", "anchors": ["source/clast.c:insert_guard", "source/clast.c:insert_guard_constraint", "source/clast.c:clast_minmax"]}
{"id": "C12", "title": "Modulo guards test divisibility", "statement": "For an equality m*v = e with |m| > 1, the emitted condition (e mod m == 0, printed with the C % operator) is true iff an integer v exists, and if the guard is decided at generation time, the decision is correct.", "quantifier": "all equality rows and all environments (including negative values)", "why_tests_cant": "Infinite arithmetic domain with sign-dependent % semantics.", "anchors": ["source/clast.c:insert_modulo_guard", "source/clast.c:insert_modulo_guard_constraint", "source/clast.c:constant_modulo_guard_is_satisfied", "source/clast.c:insert_computed_modulo_guard"]}
{"id": "C13", "title": "Pair-of-inequalities modulo guards test membership of an interval modulo m", "statement": "For a pair 0 <= e - m*v <= b (b < m) the emitted condition 'e % m <= b' is true in the generated program iff an integer v exists.", "quantifier": "all such pairs and all environments", "why_tests_cant": "The printed % truncates towards zero: the answer differs only for negative e.", "anchors": ["source/clast.c:insert_computed_modulo_guard", "source/clast.c:insert_modulo_guard_constraint", "source/pprint.c:pprint_binary"]}
{"id": "C14", "title": "An unsatisfiable modulo condition suppresses the code", "statement": "If code generation discovers that a modulo condition can never hold, no statement governed by it is executed by the generated program.", "quantifier": "all constraint sets with existentially quantified variables", "why_tests_cant": "Depends on a return value propagating through every caller.", "anchors": ["source/clast.c:insert_extra_modulo_guards", "source/clast.c:insert_modulo_guard", "source/clast.c:insert_equation"]}
{"id": "C15", "title": "Stride information is used soundly to simplify modulo guards", "statement": "Eliminating an iterator from a modulo condition using the stride of an enclosing loop leaves the truth value of the condition unchanged for every iteration of that loop, whether the offset is constant or given by a constraint.", "quantifier": "all rows, moduli, strides that are multiples of the modulus, offsets, and iterations of the enclosing loops", "why_tests_cant": "Congruence argument over all integers.", "anchors": ["source/clast.c:eliminate_using_stride_constraint", "source/stride.c:cloog_stride_alloc_from_constraint", "source/isl/domain.c:construct_stride"]}
{"id": "C16", "title": "Stride factor inverse", "statement": "The factor stored with a stride constraint e + k*i = s*a satisfies factor*k = -1 (mod s); the extended Euclid routine returns Bezout coefficients and the gcd, and always terminates.", "quantifier": "all integer coefficients k coprime with s after reduction, all strides s > 1", "why_tests_cant": "Euclid's loop runs an unbounded number of steps; correctness is an invariant.", "anchors": ["source/isl/domain.c:Euclid", "source/isl/domain.c:construct_stride", "source/matrix/constraintset.c:Euclid"]}
{"id": "C17", "title": "Separation produces disjoint pieces with the right statements", "statement": "cloog_loop_separate turns a list of (possibly overlapping) domains into pairwise disjoint domains with the same union, and a point of a piece executes exactly the inner loops of those input loops whose domain contains it, in input order, each once.", "quantifier": "all finite lists of domains (unions included), all points", "why_tests_cant": "Number of pieces is exponential and sets are infinite; the claim is over every point.", "anchors": ["source/loop.c:cloog_loop_separate", "source/loop.c:cloog_loop_combine", "source/loop.c:cloog_loop_add_disjoint"]}
{"id": "C18", "title": "Splitting a union into disjoint convex pieces", "statement": "cloog_loop_disjoint returns loops with convex, pairwise disjoint domains (per input loop) whose union is the input domain and whose inner loops/blocks are the input's.", "quantifier": "all unions with any number of components", "why_tests_cant": "Recursive, over all set shapes.", "anchors": ["source/loop.c:cloog_loop_add_disjoint", "source/loop.c:cloog_loop_disjoint"]}
{"id": "C19", "title": "Domain sort returns a permutation compatible with the iteration order", "statement": "cloog_domain_sort terminates and fills permut with a permutation of 1..n such that a domain that must be executed after another (for some common outer iteration) is placed after it.", "quantifier": "all numbers of domains and all outcomes of the pairwise comparison", "why_tests_cant": "Termination and order depend on the whole comparison matrix.", "anchors": ["source/isl/domain.c:cloog_domain_sort", "source/loop.c:cloog_loop_sort"]}
{"id": "C20", "title": "Scalar sort is a stable sort", "statement": "cloog_loop_scalar_sort terminates and returns a permutation of the loops, sorted lexicographically by the current run of scalar dimensions, keeping the original order among loops with equal scalar vectors (for scalar values on which cloog_int_cmp compares correctly, see C04).", "quantifier": "all lists of loops, all scalar vectors", "why_tests_cant": "Termination/stability of a bubble sort over arbitrary lists.", "anchors": ["source/loop.c:cloog_loop_scalar_sort", "source/loop.c:cloog_loop_constant_cmp"]}
{"id": "C21", "title": "Component decomposition respects the follows relation", "statement": "The Tarjan decomposition visits every loop exactly once, emits each strongly connected component contiguously, never overflows its stack or order buffers, and emits components in an order in which no component follows a later one.", "quantifier": "all finite directed graphs", "why_tests_cant": "Graph algorithm with an invariant over the DFS stack; all graphs.", "anchors": ["source/loop.c:cloog_loop_components_tarjan", "source/loop.c:cloog_loop_generate_components", "source/loop.c:cloog_loop_decompose_inner"]}
{"id": "C22", "title": "Detected strides are satisfied by all inner iterations", "statement": "If cloog_loop_stride attaches (stride s > 1, offset o) to a loop then every value of the iterator used by any inner domain is congruent to o modulo s, with 0 <= o < s.", "quantifier": "all lists of inner domains with arbitrary residue classes (including fixed values)", "why_tests_cant": "Folding gcds over an arbitrary list.", "anchors": ["source/loop.c:cloog_loop_stride", "source/isl/domain.c:cloog_domain_stride"]}
{"id": "C23", "title": "Unrolling covers every iteration exactly once, in order", "statement": "When loop_unroll replaces a loop by a list of single-iteration loops, every iteration of the original loop with work to do is executed by exactly one of them and they appear in increasing iterator order.", "quantifier": "all unrollable loops, all trip counts", "why_tests_cant": "Trip counts are unbounded.", "anchors": ["source/loop.c:loop_unroll", "source/isl/domain.c:cloog_domain_can_unroll", "source/isl/domain.c:cloog_domain_fixed_offset"]}
{"id": "C24", "title": "Generated loop trees execute every instance exactly once in schedule order", "statement": "The loop tree produced by cloog_loop_generate executes exactly the integer points of the statements' scattered domains inside the context, each exactly once, in lexicographic order of the scattering (ties in statement order), for every choice of -f, -l, strides, unrolling and backtracking options.", "quantifier": "all lists of statement domains, all parameter values, all options in range", "why_tests_cant": "This is the end-to-end correctness of polyhedral scanning; it ranges over all polyhedra and all executions.", "anchors": ["source/loop.c:cloog_loop_generate", "source/loop.c:cloog_loop_generate_general", "source/loop.c:cloog_loop_generate_components", "source/loop.c:cloog_loop_recurse", "source/loop.c:cloog_loop_nest", "source/loop.c:cloog_loop_generate_backtrack"]}
{"id": "C25", "title": "The clast executes the loop tree", "statement": "Interpreting the clast returned by cloog_clast_create executes exactly the statement instances of the (simplified) loop tree in the same order and with the right iterator arguments.", "quantifier": "all loop trees, all parameter values", "why_tests_cant": "Refinement between two tree semantics for all trees.", "anchors": ["source/clast.c:cloog_clast_create", "source/clast.c:insert_loop", "source/clast.c:insert_block", "source/clast.c:clast_equal"]}
{"id": "C26", "title": "Simplification in context preserves the executed instances", "statement": "cloog_loop_simplify only removes constraints implied by the enclosing loops/context and drops loops that can never execute: under the context the executed instances and their order are unchanged.", "quantifier": "all loop trees and contexts, all points inside the context", "why_tests_cant": "Semantic equivalence for all trees and points.", "anchors": ["source/loop.c:cloog_loop_simplify", "source/loop.c:loop_simplify"]}
{"id": "C27", "title": "Merging preserves instances when separation is off", "statement": "cloog_loop_merge / cloog_loop_constant replace several loops by loops over a bounding domain that contains all of them and concatenates the inner loops in order; after restricting the inner loops no instance is lost, duplicated or added.", "quantifier": "all lists of loops, all points", "why_tests_cant": "Set-level claim over all points.", "anchors": ["source/loop.c:cloog_loop_merge", "source/loop.c:cloog_loop_constant", "source/loop.c:cloog_loop_restrict_inner"]}
{"id": "C28", "title": "Per-statement first/last levels are combined by maximum", "statement": "The separation bounds used at a loop are the maximum of the -fs (resp. -ls) values over all statements under that loop list; without per-statement arrays, or if inconsistent, the global -f/-l are used.", "quantifier": "all loop trees, all option arrays", "why_tests_cant": "Recursion over arbitrary trees.", "anchors": ["source/loop.c:cloog_loop_get_fl", "source/loop.c:cloog_statement_get_fl", "source/loop.c:cloog_loop_generate_general"]}
{"id": "C29", "title": "Option fixing is idempotent and keeps separation outside scattering", "statement": "Unless overridden, cloog_program_generate adjusts -f/-l so that scattering dimensions are not partially optimised; re-running the adjustment changes nothing, and with -override options are left alone.", "quantifier": "all values of f, l, nb_scattdims, override", "why_tests_cant": "Unbounded option values, case analysis interactions.", "anchors": ["source/program.c:cloog_program_generate"]}
{"id": "C30", "title": "Option values are validated", "statement": "A numeric command-line option either is set to the number written on the command line or the program stops with an error.", "quantifier": "all argument strings", "why_tests_cant": "All strings.", "anchors": ["source/options.c:cloog_options_set", "source/options.c:cloog_options_read"]}
{"id": "C31", "title": "Matrix rows are read completely or rejected", "statement": "cloog_matrix_read_of_size fills every entry of the matrix from the input; a row with too few numbers is rejected with an error.", "quantifier": "all input texts and sizes", "why_tests_cant": "All texts.", "anchors": ["source/matrix.c:cloog_matrix_read_of_size", "source/matrix.c:next_line"]}
{"id": "C32", "title": "Generated default names are pairwise distinct", "statement": "The names generated for scattering dimensions, iterators and parameters when the input provides none are pairwise distinct.", "quantifier": "all counts of parameters, iterators and scattering dimensions", "why_tests_cant": "Unbounded counts; collision happens only for large counts.", "anchors": ["source/names.c:cloog_names_generate_items", "source/names.c:cloog_names_malloc"]}
{"id": "C33", "title": "Names at a level are the right ones", "statement": "cloog_names_name_at_level maps levels 1..nb_scattering to the scattering names and the following levels to iterator names, in order; cloog_names_scalarize removes exactly the names of scalar dimensions, keeping order.", "quantifier": "all name tables, all scaldims vectors, all levels in range", "why_tests_cant": "Index arithmetic over arbitrary tables.", "anchors": ["source/names.c:cloog_names_name_at_level", "source/names.c:cloog_names_scalarize"]}
{"id": "C34", "title": "clast_filter reports all loops and statements below a node", "statement": "clast_filter returns, without duplicates, exactly the statement numbers below the node and the for-loops whose statement set matches the filter and whose iterator matches.", "quantifier": "all clast trees, all filters", "why_tests_cant": "Recursive traversal over arbitrary trees.", "anchors": ["source/clast.c:clast_filter", "source/clast.c:concat_if_new", "source/clast.c:add_if_new", "source/clast.c:list_compare"]}
{"id": "C35", "title": "Printed C expressions parse back to the AST's value", "statement": "The text printed for an expression, read with C's operator precedence, denotes the same value as the clast expression in every environment.", "quantifier": "all clast expressions produced by code generation, all environments", "why_tests_cant": "Precedence/associativity mistakes depend on nesting shapes.", "anchors": ["source/pprint.c:pprint_expr", "source/pprint.c:pprint_term", "source/pprint.c:pprint_sum", "source/pprint.c:pprint_binary", "source/pprint.c:pprint_minmax_c"]}
{"id": "C36", "title": "Printed statements are well bracketed", "statement": "The printed program has balanced braces and parentheses, one closing brace per for/if/block in C, and in Fortran every DO and IF line is closed by its own END DO or END IF line, whatever the clast, provided that the names of iterators, parameters, statements and pragma texts contain no brackets themselves.", "quantifier": "all clast trees, both output languages, all parallelisation and timing annotations, all options", "why_tests_cant": "All trees.", "anchors": ["source/pprint.c:pprint_stmt_list", "source/pprint.c:pprint_user_stmt", "source/pprint.c:pprint_guard", "source/pprint.c:pprint_for"]}
{"id": "C37", "title": "Scalar scattering dimensions are extracted without losing order", "statement": "cloog_program_extract_scalars removes exactly the scattering dimensions that are constant for every statement and stores their values in the blocks, so that comparing (remaining dims, scalars interleaved as recorded) is the same order as comparing full scattering vectors.", "quantifier": "all statement lists and scattering matrices", "why_tests_cant": "Order equivalence over all vectors.", "anchors": ["source/program.c:cloog_program_extract_scalars", "source/loop.c:cloog_loop_constant_cmp"]}
{"id": "C38", "title": "Blocking statements preserves per-iteration order", "statement": "cloog_program_block and cloog_loop_block only merge adjacent statements with equal domains/compatible scatterings, appending statements in order, so no statement is lost, duplicated or reordered at an iteration.", "quantifier": "all loop/block lists", "why_tests_cant": "List transformation over arbitrary lists with in-place deletion.", "anchors": ["source/program.c:cloog_program_block", "source/loop.c:cloog_loop_block", "source/block.c:cloog_block_merge"]}
{"id": "C39", "title": "Reference counting frees each object exactly once", "statement": "For blocks, strides and names: after any sequence of copy and free calls in which every handle is freed once, the object is released exactly when the last handle is freed, never earlier and never twice, and the leak counters agree.", "quantifier": "all sequences of alloc/copy/free", "why_tests_cant": "All histories.", "anchors": ["source/block.c:cloog_block_copy", "source/block.c:cloog_block_free", "source/stride.c:cloog_stride_copy", "source/stride.c:cloog_stride_free", "source/names.c:cloog_names_copy", "source/names.c:cloog_names_free"]}
{"id": "C40", "title": "Matrix-backend normalisation preserves the solution set", "statement": "Normalising a constraint set of the matrix backend at a level changes the constraint rows without changing the set of their (rational, hence integer) solutions, and eliminates the level variable from every row after its first defining equality (hence from all other rows when equalities come first); rows before it are kept.", "quantifier": "all constraint matrices, all levels, all points", "why_tests_cant": "All matrices.", "anchors": ["source/matrix/constraintset.c:cloog_constraint_set_normalize"]}
{"id": "C41", "title": "Matrix-backend equality spreading preserves solutions", "statement": "Substituting recorded equalities into a constraint (cloog_equal_vector_simplify, cloog_equal_update) leaves its truth value unchanged at every point satisfying the recorded equalities.", "quantifier": "all rows, equality tables and points", "why_tests_cant": "All matrices and points.", "anchors": ["source/matrix/constraintset.c:cloog_equal_vector_simplify", "source/matrix/constraintset.c:cloog_equal_update", "source/matrix/constraintset.c:cloog_constraint_set_simplify"]}
{"id": "C42", "title": "Union-domain construction keeps statements, names and scatterings aligned", "statement": "Domains added to a union domain get consecutive statement positions in call order; scatterings are attached to the statement of the same index; misuse (too many scatterings, mismatch) stops with an error; the resulting program has one statement per domain with number = position+1 and its given name.", "quantifier": "all call sequences", "why_tests_cant": "All histories of API calls.", "anchors": ["source/union_domain.c:cloog_union_domain_add_domain", "source/union_domain.c:cloog_union_domain_set_name", "source/program.c:cloog_program_alloc"]}
{"id": "C43", "title": "Renaming duplicate dimension names keeps names unique", "statement": "When a domain with repeated dimension names is imported, the names are changed so that all dimensions have distinct names.", "quantifier": "all lists of dimension names", "why_tests_cant": "Collision needs a specific name pattern.", "anchors": ["source/isl/domain.c:count_same_name", "source/isl/domain.c:add_domain"]}
{"id": "C44", "title": "Statement stop level", "statement": "With -stop k generation stops at level k: the produced loops at that level keep exactly the statements whose domains reach it, guarded only by the outer domain, and no dimension beyond is scanned.", "quantifier": "all loop lists and contexts", "why_tests_cant": "All lists.", "anchors": ["source/loop.c:cloog_loop_stop", "source/loop.c:cloog_loop_generate_restricted_or_stop"]}
{"id": "C45", "title": "Integer divisions in generated code have the value of the constraint's existential", "statement": "A constraint may involve the integer part of the quotient of an affine expression and a number. The floord expression that generated code contains in its place has, for all values of the variables, the value of that integer part, also when such quotients are nested.", "quantifier": "For all definitions of existentials, all domains and all values of iterators and parameters.", "why_tests_cant": "Whether the expression is right depends on the common divisors of coefficients and denominator; sample values agree by accident because of rounding.", "anchors": ["source/isl/constraints.c:div_expr", "source/isl/constraints.c:cloog_constraint_variable_expr"]}
{"id": "C46", "title": "Loops for fixed iterators without -otl", "statement": "With -otl 0 an iterator that a domain fixes by an equality or by a pair of inequalities gets a loop instead of an assignment. The generated program still executes exactly the statement instances of the domain: the loop body runs for the value of the iterator if there is one and not at all if there is none.", "quantifier": "all domains, equalities and coefficients, all parameter values", "why_tests_cant": "Whether the equality has an integer solution depends on the parameter values at run time of the generated program; a test sees a few of them.", "anchors": ["source/clast.c:insert_equation_as_loop", "source/clast.c:insert_equation", "source/clast.c:clast_bound_from_constraint", "include/cloog/options.h:otl"]}
{"id": "C47", "title": "Generated code only uses the variables of the program", "statement": "Every variable that the generated code reads is an iterator, a scattering dimension or a parameter of the program, and every variable that it sets is an iterator or a scattering dimension, whatever existentially quantified variables the domains have.", "quantifier": "For all loop trees, all names, all domains and all results of isl.", "why_tests_cant": "A name from outside the tables only shows for domains with particular combinations of existentials, and then depends on what lies behind the end of an array.", "anchors": ["source/clast.c:cloog_clast_create", "source/isl/constraints.c:cloog_constraint_variable_expr", "source/names.c:cloog_names_name_at_level"]}
{"id": "C48", "title": "Printed matrices are read back", "statement": "What cloog_matrix_print writes is read back by cloog_matrix_read as the same matrix, and the rest of the input is left for the next reader. The matrix needs a column and its rows have to fit into the line buffer.", "quantifier": "all matrices with at least one column and printed rows of at most 1023 characters, all texts behind the matrix", "why_tests_cant": "All matrices and all following texts; the limits of the line buffer are only met by rows of more than a thousand characters.", "anchors": ["source/matrix.c:cloog_matrix_print", "source/matrix.c:cloog_matrix_read", "source/matrix.c:cloog_matrix_read_of_size"]}
{"id": "C50", "title": "Blocking after scattering keeps the schedule's order", "statement": "Merging loops into one block after the scatterings were applied (cloog_loop_block) keeps the order of the schedule: if an instance is dated before another one, then the date of its block is before the date of the other's block, or both are in one block at the same point and its statement comes first in the block.", "quantifier": "all loop lists, all positions of the scalar dimensions, all pairs of instances", "why_tests_cant": "Whether merging is safe depends on dates of all instances of all other statements, including ones between the merged dates.", "anchors": ["source/loop.c:cloog_loop_block", "source/loop.c:cloog_loop_equal_prefix", "source/loop.c:cloog_loop_next_scal_cmp"]}
{"id": "C51", "title": "Equality spreading follows -esp and -fsp", "statement": "When an iterator is fixed by an equality and one-time loops are simplified, the generated code assigns the iterator exactly if its level is below -fsp, or -esp is 0 and the equality is not simple (a constant, or plus or minus one other variable). In every other case no code is generated for the iterator and its value is substituted into the statements.", "quantifier": "all domains, equalities, levels and option values", "why_tests_cant": "The classification of equalities depends on all coefficients over three kinds of columns.", "anchors": ["source/clast.c:clast_equal_allow", "source/clast.c:insert_equation", "source/isl/constraints.c:cloog_constraint_equal_type"]}
{"id": "C52", "title": "A loop's stride can be read from the printed loop", "statement": "Two printed loops with the same iterator and bounds but different strides have different headers, and the header determines the iterations. True of the C output; false of the Fortran output, where the stride is printed directly behind the upper bound, so that `DO i=0, 10` with stride 2 reads `DO i=0, 102`.", "quantifier": "all iterators, bounds and strides, both languages", "why_tests_cant": "A comparison with stored Fortran text accepts whatever was printed when the text was stored; the ambiguity is a statement about pairs of loops.", "anchors": ["source/pprint.c:pprint_for"]}
{"id": "C53", "title": "Parallel annotations do not change the sequential meaning of a program", "statement": "The text printed for a program whose loops are annotated for OpenMP, MPI or vectorisation, read by a compiler that ignores the directives (and with one process, so that the distribution function hands out all iterations), is a well-formed C program that executes the same statement instances in the same order as the program without annotations; only the variables lbp, ubp, lbv, ubv, _lb_dist and _ub_dist have other values afterwards. False when a parallel loop contains a parallel loop that uses the same variables, and false in Fortran, where the bounds are never assigned.", "quantifier": "all programs made of assignments, calls, blocks, guards and loops, all annotations, all values of the variables", "why_tests_cant": "Stored texts do not execute; whether the bound variables are overwritten depends on the nesting of all the loops of the program.", "anchors": ["source/pprint.c:pprint_for", "include/cloog/clast.h:clast_for", "source/program.c:annotate_loops"]}
{"id": "C54", "title": "Matrix-backend modulo guards survive reduction", "statement": "Reducing the equality behind a modulo guard (matrix backend) keeps the modulus, makes the coefficient of the level negative, and at every integer point satisfying the recorded equalities an integer value of the iterator exists for the reduced equality exactly when one exists for the given one; the rest of the line is unchanged modulo the modulus up to sign.", "quantifier": "all equality tables built by recording and removing equalities, all levels, all rows with a nonzero level coefficient, all integer points", "why_tests_cant": "All tables, rows and points; the reduction adds multiples of other equalities found by extended Euclid.", "anchors": ["source/matrix/constraintset.c:cloog_constraint_set_reduce"]}
{"id": "C55", "title": "OpenScop statement bodies are printed with their iterators substituted", "statement": "When a statement carries an OpenScop body, the printed body is the body text with every iterator marker replaced by that statement's substitution expression and every other character kept. True for bodies with at most ten iterators; with more, a marker of two digits makes the printer continue in the middle of the marker.", "quantifier": "all body texts, all numbers of iterators, all substitution expressions", "why_tests_cant": "All texts and all iterator counts; example files have few iterators.", "anchors": ["source/pprint.c:pprint_osl_body"]}
{"id": "C56", "title": "Compilable and callable programs define what a statement does", "statement": "The text produced with -callable or -compilable defines, in front of the code, exactly one macro with the name of each statement. Using it with as many arguments as the statement has iterators means: with -callable, call hash with the number of the statement and then with each argument in order; with -compilable, count the statement in total and print its name and the arguments in order.", "quantifier": "For all programs: names, numbers of statements, depths, and all texts given as arguments.", "why_tests_cant": "The macros are substituted textually; whether a name of an iterator captures something is not settled by the names that tests use.", "anchors": ["source/program.c:cloog_program_pprint", "source/program.c:print_callable_preamble", "source/program.c:print_macros"]}
{"id": "C57", "title": "Compilable and callable programs declare their variables", "statement": "The text produced with -callable or -compilable declares, in front of the code, every variable that the generated code reads or sets, and no variable twice if the names of the program are different from each other (a scattering dimension may have the name of an iterator).", "quantifier": "For all programs, loop trees and names.", "why_tests_cant": "It relates the declarations to all code that can be generated for a program.", "anchors": ["source/program.c:cloog_program_pprint", "source/program.c:print_iterator_declarations", "source/program.c:print_scattering_declarations", "source/clast.c:cloog_clast_create"]}
{"id": "C58", "title": "The printed program runs the statements", "statement": "From the input to the text: for statements with given domains and scattering and a context, the text CLooG prints is a C program that can be read in one way only; executed with parameter values inside the context it calls every statement at every integer point of its domain, each exactly once, at no other point, and in the order of the scattering (instances with the same time in the order of the statements).", "quantifier": "For all lists of statements, scatterings with scalar dimensions, contexts, parameter values, options without -stop (and -l for the order), names, and executions of the printed text.", "why_tests_cant": "Tests compare the printed text with a recorded one or run it for one value of the parameters; the claim composes four transformations (loop generation, simplification, code construction, printing) over unboundedly many inputs and parameter values, and an error of one of them is only visible in the composition.", "anchors": ["source/program.c:cloog_program_generate", "source/program.c:cloog_program_pprint", "source/loop.c:cloog_loop_generate", "source/loop.c:cloog_loop_simplify", "source/clast.c:cloog_clast_create", "source/pprint.c:clast_pprint"]}
{"id": "C59", "title": "Which equalities are spread", "statement": "An equality that determines an iterator leaves an assignment in the generated code exactly if its level comes before -fsp, or -esp 0 is given and the equality, whose coefficient of the iterator is 1 or -1, neither fixes the iterator to a constant nor makes it equal or opposite to one other variable. Both backends classify equalities in this way.", "quantifier": "all equalities, all levels, both backends", "why_tests_cant": "The classification is a scan over all columns of an arbitrary row; tests see a few rows.", "anchors": ["source/clast.c:clast_equal_allow", "source/clast.c:insert_equation", "source/isl/constraints.c:cloog_constraint_equal_type", "source/matrix/constraintset.c:cloog_constraint_equal_type"]}
{"id": "C60", "title": "Input files are read as written, and a dumped input can be read again", "statement": "A .cloog file that consists of the language letter, the context, the parameter names, the number of statements, the domains with their lines of three numbers, the iterator names and the scatterings with their names, with comments and blank lines in between, is read as exactly this input. For every input built with the interface, dumping it with cloog_input_dump_cloog and reading the file with cloog_input_read gives the same language, context, dimension counts, names, domains and scatterings.", "quantifier": "For all files of the documented format, all inputs built with the interface, and all texts isl reads and prints.", "why_tests_cant": "Round trips on samples do not cover all names, numbers of statements, comment placements and line lengths; the failures (a name of 50 characters, a truncated file, mixed scatterings) are rare.", "anchors": ["source/input.c:cloog_input_read", "source/input.c:cloog_input_dump_cloog", "source/names.c:cloog_names_read_strings", "source/union_domain.c:cloog_union_domain_read"]}
{"id": "C61", "title": "Old and new formats of domains and scatterings mean the same", "statement": "A domain given without parameter count is read as the set whose last dimensions are the parameters; a scattering given as one set is read as the relation from the iterators to the scattering dimensions, with the dimensions in the order scattering, iterators, parameters; a context is read with all its dimensions as parameters. Relations that already have the right numbers of dimensions are not changed.", "quantifier": "For all relations (as sets of integer points) and all numbers of dimensions and parameters.", "why_tests_cant": "Whether a permutation of the dimensions is right for all dimension counts, including none, is not settled by sample files.", "anchors": ["source/isl/domain.c:cloog_domain_read_context", "source/isl/domain.c:cloog_domain_union_read", "source/isl/domain.c:cloog_domain_read_scattering"]}
{"id": "C62", "title": "Unrolling covers a loop exactly once", "statement": "When a domain that is not a union is found unrollable with n iterations from a lower bound, then for every value of the parameters and outer iterators the points of the domain take values of the iterator from that bound (rounded up) to the bound plus n-1, and the copies produced for the offsets 0 to n-1 contain all points of the domain, each exactly once; the last copy is not empty. The bound used gives the fewest copies of all usable bounds of the domain, and a union in which two parts have usable bounds is not unrolled.", "quantifier": "For all sets given by constraints with integer coefficients and integer divisions, all levels and parameter values.", "why_tests_cant": "The number of copies is a maximum over all parameter values, and every one of them must agree with the rounding of the bound.", "anchors": ["source/isl/domain.c:cloog_domain_can_unroll", "source/isl/domain.c:cloog_domain_fixed_offset", "source/isl/domain.c:constraint_can_unroll", "source/loop.c:cloog_loop_unroll"]}
{"id": "C63", "title": "Lower bounds for strided loops start at the right value and lose nothing", "statement": "When a stride and its offset are found for a loop, moving the lower bounds of its domain up to the next value that fits the stride adds no points, removes none that fit the stride, makes the loop start at a value that fits, changes nothing when done again, and is the same bound as the one printed in the generated loop.", "quantifier": "For all equalities from which a stride is derived, all domains whose bounds can be moved, and all parameter values.", "why_tests_cant": "It concerns congruences for all coefficients, strides and offsets; the failing coefficients are rare.", "anchors": ["source/isl/domain.c:cloog_domain_stride_lower_bound", "source/isl/domain.c:cloog_domain_list_stride", "source/isl/domain.c:cloog_domain_can_stride", "source/isl/constraints.c:cloog_constraint_stride_lower_bound"]}
{"id": "C64", "title": "Splitting by parameter signs keeps every point and makes hulls bounded", "statement": "The set used to split a domain before its convex hull is taken partitions the whole space, so that splitting neither loses nor duplicates points; and on each of its parts the iterator of the level has a lower and an upper bound that hold for the whole domain, provided each basic set of the domain has such bounds.", "quantifier": "For all unions of basic sets, all levels and numbers of parameters.", "why_tests_cant": "Existence of a bound on a hull is a statement about all parameter values at once.", "anchors": ["source/isl/domain.c:cloog_domain_bound_splitter", "source/isl/domain.c:constraint_bound_split", "source/loop.c:cloog_loop_separate"]}
{"id": "C65", "title": "The macros of generated programs expand to floor, ceiling, minimum and maximum", "statement": "In the text of a callable or compilable program, replacing the macros floord, ceild, min and max in any printed expression by their definitions at the head of the program gives a C expression without macros that can be read in only one way and has the value of the expression that was printed, whatever texts the arguments are and however the macros are nested.", "quantifier": "For all expressions of generated code, all programs and all values of the variables.", "why_tests_cant": "Precedence errors in macros show only for particular argument texts; there are infinitely many.", "anchors": ["source/program.c:print_macros", "source/pprint.c:pprint_binary", "source/pprint.c:pprint_minmax_c"]}
{"id": "C66", "title": "A strided loop starts at the first value of its class", "statement": "When the values of an iterator are known to lie in a residue class that depends on outer iterators and parameters, each lower bound of the generated loop is the least value that satisfies the lower bound constraint and lies in the class, so that stepping by the stride neither skips an iteration nor visits a value outside of the class.", "quantifier": "For all lower bound constraints, all stride constraints and all values of outer iterators and parameters.", "why_tests_cant": "The offset of the class is parametric; a wrong rounding shows only for some residues of the parameters.", "anchors": ["source/isl/constraints.c:cloog_constraint_stride_lower_bound", "source/isl/constraints.c:extract_stride_offset", "source/clast.c:update_lower_bound_c"]}
{"id": "C67", "title": "Loop annotations of OpenScop input reach the loops they are about", "statement": "When code is generated from an OpenScop specification with loop annotations, a loop of the output is printed for OpenMP, for vectorisation or with a user's directive exactly if an annotation about it asks for that, with the private variables and the directive of the last such annotation; annotations that are about no loop lead to a warning; and every variable used in place of the bounds of a parallel loop, as well as every iterator, is declared in the output.", "quantifier": "For all generated trees, all lists of annotations and both ways of comparing sets of statements.", "why_tests_cant": "Which annotation is about which loop depends on the whole tree and on the set of statements below the loop; the interactions of several annotations are unbounded.", "anchors": ["source/program.c:annotate_loops", "source/program.c:get_osl_loop_flags", "source/program.c:print_iterator_declarations_osl", "source/clast.c:clast_filter"]}
{"id": "C68", "title": "Text around a SCoP is kept", "statement": "When code is generated from an OpenScop specification with coordinates in a source file, the output contains, around the generated code, exactly the characters of the file before the start of the SCoP and exactly those after its end, in order, each once.", "quantifier": "For all files, all coordinates that name places of the file and all generated code.", "why_tests_cant": "Off-by-one errors in lines or columns show only for particular shapes of the file: SCoPs that share a line with other code, ends at the end of a line or of the file.", "anchors": ["source/program.c:cloog_program_osl_pprint"]}
{"id": "C49", "title": "No code duplication without separation", "statement": "When the separation of polyhedra is switched off (-f -1, without unrolling or levels per statement), each statement of the input is called at most once in the generated code, whatever the other options are: loops that overlap are scanned by one loop around their union and guards select the statements.", "quantifier": "For all lists of statements with any scattering, all contexts, all settings of the other options and all domains that are single polyhedra.", "why_tests_cant": "Duplication depends on how the domains of all statements overlap at each level; the number of arrangements is unbounded and a test shows the size of the code for one of them.", "anchors": ["source/loop.c:cloog_loop_generate_general", "source/loop.c:cloog_loop_merge", "source/loop.c:cloog_loop_generate_components", "source/loop.c:cloog_loop_simplify", "source/clast.c:insert_loop", "doc/cloog.texi"]}
{"id": "C69", "title": "Separated loops have no idle iterations", "statement": "With separation (the default -f 1), each iteration of a generated loop executes an instance of each statement that is inside the loop, so no guard is needed for a statement to be skipped in some iterations. With -f n this holds from position n of the scattering on, where scalar dimensions count as positions.", "quantifier": "all lists of statements, all scatterings with any scalar dimensions, all values of -f >= 1, with or without -strides, -otl and -sh; without -l, -stop, -backtrack, unrolling and per-statement levels", "why_tests_cant": "It is a claim about each iteration of each loop for all values of the parameters and all sets of statements.", "anchors": ["source/loop.c:cloog_loop_separate", "source/loop.c:cloog_loop_generate_general", "source/loop.c:cloog_loop_specialize", "source/loop.c:cloog_loop_is_constant", "source/loop.c:cloog_loop_propagate_lower_bound", "doc/cloog.texi"]}
{"id": "C70", "title": "Code generation terminates", "statement": "cloog_loop_generate and cloog_loop_simplify end for every list of statements: the recursion over the levels and runs of scalar dimensions, the splitting of unions into disjoint parts, separation, merging, backtracking, sorting by scalars and the decomposition into components each take a finite number of rounds. The comparison of two loops never needs more rounds than the scattering and the domains have dimensions. Unrolling a loop never leaves nothing.", "quantifier": "all lists of statements with domains of any dimensions, all contexts, all scatterings, all values of all options (with unrolling: statements that have the dimensions of the scattering); provided that each call of isl returns", "why_tests_cant": "A test can only show that some input ends; non-termination on another input cannot be observed by waiting.", "anchors": ["source/loop.c:cloog_loop_generate", "source/loop.c:cloog_loop_generate_restricted", "source/loop.c:cloog_loop_add_disjoint", "source/loop.c:cloog_loop_separate", "source/loop.c:cloog_loop_merge", "source/loop.c:cloog_loop_generate_backtrack", "source/loop.c:cloog_loop_follows", "source/loop.c:cloog_loop_simplify", "source/loop.c:loop_unroll"]}
{"id": "C71", "title": "Statements with the same domain share one loop nest", "statement": "With -f -1 and a scattering without scalar dimensions, statements that all have the same domain are generated in one nest of loops: one loop per level, and inside of them the statements in the order of the input. They are not put into separate loops one after the other.", "quantifier": "all numbers of statements, all domains (unions included) of any dimension, all contexts, with or without -strides, -otl, -sh and -backtrack; without -l, -stop, unrolling and per-statement levels", "why_tests_cant": "It is a claim about all domains and any number of statements; the grouping depends on a search for components and on isl's comparisons.", "anchors": ["source/loop.c:cloog_loop_generate_components", "source/loop.c:inner_loop_follows", "source/loop.c:cloog_loop_merge", "source/loop.c:cloog_loop_generate_general"]}
{"id": "C72", "title": "-l stops the sharing of loops after the given depth, and changes nothing above it", "statement": "With -l n, a loop that is inside of a loop at position n of the scattering (or deeper) has one thing in its body, so that statements no longer share loops there. The loops up to position n, and the statements around them, are the same (number, order and bounds) as without -l.", "quantifier": "all statements, domains, contexts, scatterings (scalar dimensions included) and all n >= 0; first part with any other options but per-statement levels, second part without -backtrack, -strides and unrolling", "why_tests_cant": "The tests compare some outputs with -l; the claim is about the shape of all generated loop trees and compares two runs with different options.", "anchors": ["source/loop.c:cloog_loop_generate_general", "source/loop.c:cloog_loop_nest", "doc/cloog.texi"]}
{"id": "C73", "title": "Domains and scatterings made from matrices and bounds mean what their rows say", "statement": "cloog_domain_from_cloog_matrix gives exactly the points that satisfy the rows of the matrix, cloog_scattering_from_cloog_matrix exactly the pairs of dates and instances that satisfy its rows, cloog_domain_from_bounds and cloog_domain_cube exactly the points between the bounds; no row is read beyond its end.", "quantifier": "all matrices, numbers of iterators, scattering dimensions and parameters, all bounds", "why_tests_cant": "No test of the project calls these functions; the claim is about all coefficients and all numbers of columns of each kind.", "anchors": ["source/isl/domain.c:cloog_domain_from_cloog_matrix", "source/isl/domain.c:cloog_scattering_from_cloog_matrix", "source/isl/domain.c:isl_constraint_read_from_matrix", "source/isl/domain.c:cloog_domain_from_bounds", "source/isl/domain.c:cloog_domain_cube", "doc/cloog.texi"]}
{"id": "C74", "title": "An OpenScop scop is imported statement by statement", "statement": "Reading an OpenScop scop gives a program with one statement per statement of the scop, in the same order, with its domain and scattering; the parameters and scattering dimensions have the names the scop gives them, the iterators default names, and the output language is Fortran exactly if the scop says FORTRAN. More names than parameters, and a scattering that is none, are refused.", "quantifier": "all scops: numbers of statements, parameters, names and scattering dimensions", "why_tests_cant": "Tests compare the output for some scops; the claim is about all scops, including those with missing or too many names.", "anchors": ["source/union_domain.c:cloog_union_domain_from_osl_scop", "source/input.c:cloog_input_from_osl_scop", "source/input.c:cloog_input_read", "source/options.c:cloog_options_copy_from_osl_scop", "source/isl/domain.c:cloog_domain_from_osl_relation", "source/isl/domain.c:cloog_scattering_from_osl_relation"]}
{"id": "C75", "title": "Expressions printed for Fortran have the same value there", "statement": "An expression printed with Fortran as the output language, read by the rules of Fortran (names without case, a sign only in front of an expression, integer division that truncates, FLOOR, CEILING, MOD, MIN, MAX, REAL), has one reading and its value is that of the expression. Floor and ceiling divisions are computed with reals; they are right as long as both operands can be represented exactly as a default real, and can be off by one beyond that.", "quantifier": "all expressions, values of the variables, precisions of the reals and roundings to nearest", "why_tests_cant": "The tests compare generated Fortran text with a stored text; no test runs it, and the rounding of REAL shows only for large values.", "anchors": ["source/pprint.c:pprint_expr", "source/pprint.c:pprint_term", "source/pprint.c:pprint_sum", "source/pprint.c:pprint_binary", "source/pprint.c:pprint_minmax_f", "source/pprint.c:pprint_reduction"]}
{"id": "C76", "title": "Default names stay distinct in Fortran", "statement": "The default names of parameters, iterators and scattering dimensions, as far as they are identifiers, are pairwise distinct also for Fortran, which does not distinguish upper and lower case.", "quantifier": "all numbers of parameters, iterators and scattering dimensions", "why_tests_cant": "The tests for Fortran have few iterators and compare texts; the clash needs a fifth iterator.", "anchors": ["source/names.c:cloog_names_generate_items", "source/program.c:cloog_program_alloc", "include/cloog/names.h:FIRST_PARAMETER", "include/cloog/names.h:FIRST_ITERATOR"]}
{"id": "C77", "title": "A program dumped as an input file is read back", "statement": "cloog_program_dump_cloog writes a file that cloog_input_read reads as the program: its language, context, names, the domains of its statements and the given scatterings.", "quantifier": "all programs and lists of scatterings whose names can be written in a file, any isl that reads back what it prints", "why_tests_cant": "The tests never dump a program; whether a file means the same depends on every combination of names, blocks, unions and scatterings.", "anchors": ["source/program.c:cloog_program_dump_cloog", "source/input.c:cloog_input_read", "source/union_domain.c:cloog_union_domain_read"]}
{"id": "C78", "title": "A program printed for Fortran, read as Fortran, runs the statements", "statement": "The text written with the Fortran option is one Fortran program (DO loops with bounds fixed on entry, IF ... THEN, assignments, calls), and when it runs it makes exactly the calls of the scanned loop tree, in the same order, with the same arguments.", "quantifier": "all generated programs without blocks and strides whose names differ without case, all parameter values whose quotients fit into a default real", "why_tests_cant": "The tests compare Fortran output with reference files as text; they never read it with the rules of Fortran, let alone run it for all values.", "anchors": ["source/pprint.c:pprint_for", "source/pprint.c:pprint_guard", "source/pprint.c:pprint_user_stmt", "source/pprint.c:pprint_stmt_list"]}
{"id": "C79", "title": "Code generation stays within the arrays it allocates", "statement": "Generating code for a loop tree writes no element of a reduction, a minimum or maximum, or a list of conditions past the end of the array that was allocated for it, and uses no element that was not written.", "quantifier": "all loop trees, all bounds, strides and modulo conditions", "why_tests_cant": "A write past the end of a small heap array usually goes unnoticed; it needs a stride whose offset has several parameters and a modulo condition on that iterator, which no test file has.", "anchors": ["source/clast.c:insert_modulo_guard_constraint", "source/clast.c:eliminate_using_stride_constraint", "source/clast.c:clast_bound_from_constraint", "source/clast.c:clast_minmax", "source/clast.c:insert_guard"]}
{"id": "C80", "title": "The number of iterations of a loop is known when it starts", "statement": "In a generated program, the body of a loop changes neither the iterator of the loop nor the value of its last-value expression, and this expression does not depend on the iterator. So the loop runs its body exactly as often as the values on entry say, with the iterator at the first value, the first value plus the stride, and so on; a loop of C can be read as a DO loop, run in parallel, or have its last value stored in a variable before it. False when the last value uses an existential that is defined by the iterator.", "quantifier": "all loop trees whose bounds use outer iterators, parameters and existentials defined by them, all values of the variables", "why_tests_cant": "The reference outputs show only the programs of the tests; whether some nesting of equalities, substituted iterators, strides and existentials makes the body assign a variable of the bound cannot be seen from them.", "anchors": ["source/clast.c:insert_for", "source/clast.c:clast_minmax", "source/clast.c:clast_bound_from_constraint", "source/clast.c:insert_equation", "source/clast.c:insert_loop"]}
{"id": "C81", "title": "With -callable every loop is closed, and only loops without a bound change", "statement": "With the option -callable every loop of the generated code has a first and a last value. Loops that have both bounds anyway are generated as without the option. A loop that has only one of the bounds takes the 1000 steps' worth of values next to it, and a loop with none takes the values from -1000 to 1000. The printed program is still a program of the chosen language. (Instances of the domain further away than that are not executed.)", "quantifier": "for all loop trees and all values of the parameters", "why_tests_cant": "The tests with -callable compare runs of small examples; the claim is about every loop of every generated program, including loops nested in others whose bounds depend on outer iterators.", "anchors": ["source/clast.c: clast_for_bound, insert_for, insert_equation_as_loop, cloog_clast_create", "source/pprint.c: pprint_sum, pprint_for"]}
{"id": "C82", "title": "The generated code depends neither on the order of the constraints nor on the C library's qsort", "statement": "A domain is a set: listing its constraints in another order, or running with a C library whose qsort uses another algorithm, does not change the generated program. In particular the bounds of loops, the order of the arguments of min and max, the conditions of a guard and their order, and the iterators that are replaced by expressions stay the same, and the comparison functions given to qsort are consistent as the C standard asks.", "quantifier": "for all loop trees, all orders of the constraints of each domain, and all functions that sort as the C standard says of qsort", "why_tests_cant": "The tests compare the output of one build with stored files, so they fix one isl version and one qsort; the claim is about all orders and all sorting algorithms.", "anchors": ["source/clast.c: qsort_expr_cmp, qsort_eq_cmp, clast_reduction_sort, clast_guard_sort, clast_expr_cmp, clast_minmax, insert_guard, insert_loop", "source/isl/constraints.c: cloog_constraint_set_defining_equality, cloog_constraint_set_defining_inequalities"]}
{"id": "C83", "title": "At the end of a run as many loops have been freed as were allocated", "statement": "The allocation statistics printed by -leaks agree: from the loops that the program is built with, through generation and simplification to the freeing of the program, every loop that is allocated is freed once and no loop becomes unreachable before, so that the command line program does not report an internal problem.", "quantifier": "for all lists of statements, all options, all sets of scalar dimensions and all behaviours of the domain operations (the sort returning a permutation)", "why_tests_cant": "The tests look at the generated code, and only at some inputs; which functions copy, move or drop loops depends on the shapes of the domains met in the recursion, and the claim is about all of them.", "anchors": ["source/loop.c: cloog_loop_malloc, cloog_loop_free, cloog_loop_free_parts, cloog_loop_copy, cloog_loop_generate, cloog_loop_generate_scalar, cloog_loop_generate_backtrack, cloog_loop_simplify", "source/cloog.c: main"]}
{"id": "C84", "title": "A block of statements is freed when, and only when, no loop needs it any more", "statement": "Blocks are shared by the loops that code generation makes from one statement and have a reference counter. During generation and simplification the counter of a block never falls below the number of loops that point to it, so no block is freed while a loop still needs it; it never stays above it either, so that freeing the program frees every block and the statements in it.", "quantifier": "for all blocks, all lists of statements, all options, all sets of scalar dimensions and all behaviours of the domain operations (the sort returning a permutation)", "why_tests_cant": "Whether a pointer to a block is moved, copied with its counter or dropped is decided separately at some twenty places of the recursion, depending on how the domains overlap; a block freed too early often still prints correctly.", "anchors": ["source/block.c: cloog_block_copy, cloog_block_free", "source/loop.c: cloog_loop_copy, cloog_loop_free, cloog_loop_free_parts, cloog_loop_add_disjoint, cloog_loop_separate, cloog_loop_decompose_inner, cloog_loop_generate_scalar, cloog_loop_generate_backtrack, cloog_loop_simplify"]}
{"id": "C85", "title": "The matrix backend finds the constraints that define a variable, and only those", "statement": "With the matrix backend, asking for the equality that defines a variable gives the first equality of the set in which the variable has a non-zero coefficient, and at every integer point of the set this equality fixes the value of the variable. Asking for a pair of inequalities gives one exactly when two constraints of the set involve the variable, both are inequalities, their coefficients are opposite with those of the variable at least 2 in absolute value, no later iterator occurs in them and the sum k of their constants is at least 0 and less than the coefficient m; the upper bound is the one with the negative coefficient. The set then has a point with given other values exactly when the other constraints hold and the upper bound without the variable has a remainder of at most k modulo m, and the value of the variable is the floor of the division.", "quantifier": "for all matrices, all columns of iterators, all numbers of parameters and all integer points", "why_tests_cant": "The search runs over all orders of the rows and all coefficients, and its answer is used as an exact replacement of a quantified variable by a modulo test; a test compares a few programs.", "anchors": ["source/matrix/constraintset.c: cloog_constraint_set_contains_level, cloog_constraint_set_defining_equality, cloog_constraint_set_defining_inequalities", "source/int.c: cloog_seq_first_non_zero, cloog_seq_is_neg"]}
{"id": "C86", "title": "A global scattering given as an isl union map becomes the program it describes", "statement": "Making a union domain from an isl union map gives one statement for each map of the union, named after the input space of the map, whose instances are the points of the domain of the map and whose dates are those the map gives them. The parameters keep their names, iterators and scattering dimensions get default names, and all names of the program are different.", "quantifier": "for all union maps (any number of maps, any names, any dimensions)", "why_tests_cant": "The names and dimensions come from the caller; a collision of a parameter with a default name only shows in the generated code, and no test calls this function.", "anchors": ["source/isl/domain.c: cloog_union_domain_from_isl_union_map, add_domain_from_map", "source/union_domain.c: cloog_union_domain_set_name, cloog_union_domain_add_domain", "source/program.c: cloog_program_alloc", "source/names.c: cloog_names_generate_items"]}
{"id": "C87", "title": "Names given by the user never clash with default names", "statement": "When a user names some of the parameters, iterators and scattering dimensions of a program (one or two of the three kinds) and leaves the other kinds to default, all names in the generated program are different, so that the generated code executes the same instances as with any other choice of names.", "quantifier": "for all numbers of parameters, iterators and scattering dimensions and all lists of given names", "why_tests_cant": "The given names are arbitrary strings. The inputs of the test suite use a few parameter names (n, m, p, ...), and the only ones with a parameter i give names to the iterators as well.", "anchors": ["source/program.c: cloog_program_alloc", "source/names.c: cloog_names_generate_items", "source/union_domain.c: cloog_union_domain_set_name", "source/clast.c: cloog_clast_create"]}
{"id": "C88", "title": "The bounds of loops share no memory, and freeing a clast frees them once", "statement": "When a loop gets a bound that is derived from another bound (a loop made from an equality when equalities are not substituted, or a missing first or last value under the option callable), the two bounds are separate expressions: freeing the loop frees every node that was allocated for its bounds, none twice, and nothing that belongs to something else. A copied expression is equal to the original and keeps working when the original has been freed.", "quantifier": "for all expressions, all contents of the memory and all allocators that return addresses not in use", "why_tests_cant": "The tests compare the printed code; a shared or lost node does not change it. Whether a double free shows depends on the allocator.", "anchors": ["source/clast.c: clast_expr_copy, free_clast_expr, free_clast_term, free_clast_binary, free_clast_reduction, free_clast_for, clast_for_bound, insert_equation_as_loop", "include/cloog/clast.h: struct clast_expr"]}
{"id": "C89", "title": "Freeing a clast frees all its nodes, each once", "statement": "cloog_clast_free frees every statement, expression and string of a clast, none twice, and reads nothing that has been freed; this holds exactly for the clasts in which no node is reached in two ways. A clast made with the constructors can always be freed, and afterwards the memory is as before.", "quantifier": "for all clasts, all contents of the memory and all allocators that return addresses not in use", "why_tests_cant": "The tests compare printed code and do not look at memory; a leak or a read after free in one variant of node needs a clast with this node and a checking allocator to show.", "anchors": ["source/clast.c: cloog_clast_free, free_clast_stmt, free_clast_assignment, free_clast_user_stmt, free_clast_block, free_clast_for, free_clast_guard, free_clast_expr, new_clast_assignment, new_clast_user_stmt, new_clast_block, new_clast_for, new_clast_guard", "include/cloog/clast.h: struct clast_stmt"]}
{"id": "C90", "title": "The user is warned when input is suspicious or an option is changed", "statement": "A warning is printed when two statements of the input file have the same scattering, when there is not one scattering for each statement, when scatterings are not functions (with their number), when the depth given with -l is changed, and for each unknown option; and none of these warnings is printed otherwise. The option -q suppresses informational messages only.", "quantifier": "for all lists of scatterings and statements, all option values and all command lines", "why_tests_cant": "The tests compare the generated code on the standard output; messages go to the standard error stream, which is not compared.", "anchors": ["source/options.c: cloog_vmsg, cloog_msg, cloog_options_read", "source/isl/domain.c: cloog_scattering_list_lazy_same, cloog_scattering_fully_specified", "source/union_domain.c: cloog_union_domain_read", "source/program.c: cloog_program_scatter, cloog_program_generate"]}
