{
 "claims": [
  {
   "property": "C01",
   "status": "proved",
   "theorems": [
    "Verif.Props.Arith.C01_macros_exact",
    "Verif.Props.Arith.C01_minmax_exact",
    "Verif.Props.Arith.C01_machine_never_wrong",
    "Verif.Props.Arith.C01_machine_defined",
    "Verif.Props.Arith.C01_machine_overflow_witness"
   ],
   "note": "Exact for all n and d > 0; machine evaluation never returns a wrong value and is defined when |n|+d < 2^(w-1)."
  },
  {
   "property": "C02",
   "status": "proved",
   "theorems": [
    "Verif.Props.Arith.C02_div_macros",
    "Verif.Props.Arith.C02_assert",
    "Verif.Props.Arith.C02_machine_never_wrong",
    "Verif.Props.Arith.C02_machine_defined"
   ],
   "note": ""
  },
  {
   "property": "C03",
   "status": "proved",
   "theorems": [
    "Verif.Props.Arith.C03_gcd",
    "Verif.Props.Arith.C03_seq_gcd",
    "Verif.Props.Arith.C03_normalize",
    "Verif.Props.Arith.C03_same_solutions",
    "Verif.Props.Arith.C03_seq_is_neg"
   ],
   "note": ""
  },
  {
   "property": "C04",
   "status": "partial",
   "theorems": [
    "Verif.Props.Arith.C04_cmp_exact_partial",
    "Verif.Props.Arith.C04_fixed_width_false",
    "Verif.Props.Arith.C04_int_overflow_false"
   ],
   "note": "False of the code for fixed-width integers (witnesses proved); exact when the difference fits in int."
  },
  {
   "property": "C05",
   "status": "proved",
   "theorems": [
    "Verif.Props.Bounds.C05_null_iff",
    "Verif.Props.Bounds.C05_lower",
    "Verif.Props.Bounds.C05_upper",
    "Verif.Props.Bounds.C05_equality",
    "Verif.Props.Bounds.C05_equality_converse",
    "Verif.Props.Bounds.C05_divisors_positive"
   ],
   "note": "clast_bound_from_constraint over exact integers; existentially quantified columns enter through arbitrary expressions with the right value"
  },
  {
   "property": "C06",
   "status": "proved",
   "theorems": [
    "Verif.Props.Bounds.C06_lower_absent_iff",
    "Verif.Props.Bounds.C06_upper_absent_iff",
    "Verif.Props.Bounds.C06_scans_exactly",
    "Verif.Props.Bounds.C06_scans_stride",
    "Verif.Props.Bounds.C06_stride_needs_congruence"
   ],
   "note": "clast_minmax as called for loop bounds; strides with a constant offset included, strides whose offset is given by a constraint not"
  },
  {
   "property": "C07",
   "status": "proved",
   "theorems": [
    "Verif.Props.Arith.C07_least",
    "Verif.Props.Arith.C07_idempotent",
    "Verif.Props.Arith.C07_visits"
   ],
   "note": ""
  },
  {
   "property": "C08",
   "status": "proved",
   "theorems": [
    "Verif.Props.Expr.C08_equal_sound",
    "Verif.Props.Expr.C08_equal_refl_copy",
    "Verif.Props.Expr.C08_fixed_width_false"
   ],
   "note": "for the exact comparison of GMP builds; C08_fixed_width_false shows the claim fails with the machine-integer cloog_int_cmp (see C04)"
  },
  {
   "property": "C09",
   "status": "partial",
   "theorems": [
    "Verif.Props.Expr.C09_not_transitive",
    "Verif.Props.Expr.C09_preorder_partial",
    "Verif.Props.Bounds.bound_sumOnly"
   ],
   "note": "false as stated: C09_not_transitive gives three expressions on which the comparator is cyclic; proved on expressions whose reductions are all sums (all bounds sorted by clast_minmax, Bounds.bound_sumOnly)"
  },
  {
   "property": "C10",
   "status": "proved",
   "theorems": [
    "Verif.Props.Expr.C10_dropped_loop_empty",
    "Verif.Props.Expr.C10_collapsed_loop_once",
    "Verif.Props.Equations.C10_equal_bounds_abort"
   ],
   "note": "stated on the tests of clast_insert_for (is_bigger_constant, expr_equal); the whole function is covered in C25 With the isl library the collapsed form is never produced: the program stops at an assertion (C10_equal_bounds_abort)."
  },
  {
   "property": "C11",
   "status": "proved",
   "theorems": [
    "Verif.Props.Guards.C11_guard_exact"
   ],
   "note": "Conjunction of generated guard equations is true iff every constraint not involving the scanned column holds."
  },
  {
   "property": "C12",
   "status": "proved",
   "theorems": [
    "Verif.Props.Guards.C12_modulo_equality"
   ],
   "note": "Outcome (test, always, never) of the equality modulo guard is equivalent to solvability; includes stride elimination."
  },
  {
   "property": "C13",
   "status": "partial",
   "theorems": [
    "Verif.Props.Guards.C13_modulo_pair_partial",
    "Verif.Props.Guards.C13_negative_operand"
   ],
   "note": "False for negative operands of % (witness C13_negative_operand); proved when the operand is not negative."
  },
  {
   "property": "C14",
   "status": "partial",
   "theorems": [
    "Verif.Props.Guards.C14_equation_unsat_partial",
    "Verif.Props.Guards.C14_extra_guard_ignored"
   ],
   "note": "Proved for the equation of a level; false for existential columns because the return value is ignored (witness)."
  },
  {
   "property": "C15",
   "status": "proved",
   "theorems": [
    "Verif.Props.Guards.C15_eliminate_sound",
    "Verif.Props.Guards.C15_eliminate_all_sound"
   ],
   "note": "Residue unchanged by elimination with constant and constraint offsets, one step and all levels."
  },
  {
   "property": "C16",
   "status": "partial",
   "theorems": [
    "Verif.Props.Arith.C16_euclid",
    "Verif.Props.Arith.C16_stride_sound",
    "Verif.Props.Arith.C16_factor_partial",
    "Verif.Props.Arith.C16_factor_false"
   ],
   "note": "Euclid and the stride value are proved; the factor claim is false when the iterator coefficient shares a factor with the stride (witness), proved when coprime."
  },
  {
   "property": "C17",
   "status": "proved",
   "theorems": [
    "Verif.Props.Separate.C17_separate",
    "Verif.Props.Separate.finDom_laws"
   ],
   "note": "Whenever the call returns (recursion depth of the splitting of unions is a fuel parameter, termination not claimed). Set operations of isl are assumed to satisfy SetLaws; finDom_laws shows these can be met."
  },
  {
   "property": "C18",
   "status": "proved",
   "theorems": [
    "Verif.Props.Separate.C18_disjoint",
    "Verif.Props.Separate.finDom_laws"
   ],
   "note": "Same assumptions as C17."
  },
  {
   "property": "C19",
   "status": "partial",
   "theorems": [
    "Verif.Props.DomainSort.C19_sorts_partial",
    "Verif.Props.DomainSort.C19_permutation_partial",
    "Verif.Props.DomainSort.C19_diverges",
    "Verif.Props.DomainSort.C19_cycle_order"
   ],
   "note": "Terminates and topologically sorts for comparisons consistent with a strict order; permutation whenever it ends; diverges for a concrete cyclic comparison (witness)."
  },
  {
   "property": "C20",
   "status": "proved",
   "theorems": [
    "Verif.Props.ScalarSort.C20_scalar_sort",
    "Verif.Props.ScalarSort.C20_fixed_width"
   ],
   "note": "Terminates, permutation, sorted, stable, for an exact cloog_int_cmp; C20_fixed_width shows the consequence of C04 in fixed-width builds."
  },
  {
   "property": "C21",
   "status": "proved",
   "theorems": [
    "Verif.Props.Tarjan.C21_components"
   ],
   "note": "All graphs: termination, buffers, strongly connected components, original order inside of a component, topological order. The outcome of follows is a parameter, assumed a pure function of the two positions."
  },
  {
   "property": "C22",
   "status": "proved",
   "theorems": [
    "Verif.Props.Stride.C22_stride",
    "Verif.Props.Stride.C22_executes"
   ],
   "note": "For residue classes as returned by isl (ResidueOK). C22_executes: the strided loop runs its inner loops at the same points; strides with a variable offset are an assumption there (C16)."
  },
  {
   "property": "C23",
   "status": "proved",
   "theorems": [
    "Verif.Props.LoopOps.C23_unroll"
   ],
   "note": "Loops without stride around statements, with the assumed contracts of cloog_domain_can_unroll and fixed_offset (GenLaws.unroll)."
  },
  {
   "property": "C24",
   "status": "partial",
   "theorems": [
    "Verif.Props.Generate.C24_generate_partial",
    "Verif.Props.Generate.C24_last_partial",
    "Verif.Props.Generate.C24_strides_partial",
    "Verif.Props.Generate.generateS_generate",
    "Verif.Props.Generate.trace_exists",
    "Verif.Props.Generate.C24_scalar_drops"
   ],
   "note": "Exact instance set, each once, in schedule order, for every run of the generated loop tree, with assumed isl contracts (GenLaws). C24_last_partial covers -l and per-statement levels not inside the scattering (order of the scattering only). C24_strides_partial covers -strides, with StrideLaws, as long as cloog_loop_combine merges no loops with different strides. Missing: -stop (C44), the shapes of statement lists outside StmtsOK. C24_scalar_drops is the negation for statements with scalar dimensions a group loses (outside StmtsOK)."
  },
  {
   "property": "C25",
   "status": "partial",
   "theorems": [
    "Verif.Props.ClastExec.C25_program_executes_tree_partial"
   ],
   "note": "Whole-tree theorem: the program built by cloog_clast_create executes exactly the statement instances of the loop tree, in order, with -otl 1 and -otl 0. Missing: equalities without integer solution under -otl 0 (C46), pairs with negative % operands (C13), unsatisfied extra modulo guards (C14), existentials with reduced numerators, several existentials in one equality, blocks on scanning loops, unbounded loops; isl's reduction of equalities and isl_aff_floor are assumed contracts (bounds of strided loops are modelled and proved, C66)."
  },
  {
   "property": "C26",
   "status": "proved",
   "theorems": [
    "Verif.Props.Simplify.C26_simplify",
    "Verif.Props.Simplify.C26_union_reordered"
   ],
   "note": "Simplified loop lists execute the same instances in the same order for every point of the context, for trees whose scanning loops are convex (this holds for generated trees without projections of -l; C26_union_reordered shows the condition is needed)."
  },
  {
   "property": "C27",
   "status": "proved",
   "theorems": [
    "Verif.Props.LoopOps.C27_merge"
   ],
   "note": "Under GenLaws; stated per point: the statements run at a point after merging are the given ones that contain the point, in order."
  },
  {
   "property": "C28",
   "status": "proved",
   "theorems": [
    "Verif.Props.LoopOps.C28_levels",
    "Verif.Props.LoopOps.isMax_exists"
   ],
   "note": "Array entries outside the array read as 0 in the model."
  },
  {
   "property": "C29",
   "status": "proved",
   "theorems": [
    "Verif.Props.Options.C29_option_fixing"
   ],
   "note": "Whatever command line is read, the options after the fixing step satisfy the safety conditions the generator needs."
  },
  {
   "property": "C30",
   "status": "partial",
   "theorems": [
    "Verif.Props.Options.C30_numbers_partial",
    "Verif.Props.Options.C30_missing_argument",
    "Verif.Props.Options.C30_accepts_anything",
    "Verif.Props.Options.C30_garbage",
    "Verif.Props.Options.C30_input_files"
   ],
   "note": "False of the code: strtol is called with a null end pointer, so any text is accepted as a number. Proved: what is read for numeric arguments, missing arguments are reported, and the witnesses."
  },
  {
   "property": "C31",
   "status": "partial",
   "theorems": [
    "Verif.Props.Matrix.C31_read_partial",
    "Verif.Props.Matrix.C31_short_row_accepted",
    "Verif.Props.Matrix.C31_short_row_witness",
    "Verif.Props.Matrix.C31_short_row_undefined",
    "Verif.Props.Matrix.C31_long_line"
   ],
   "note": "False of the code: a row with too few numbers is accepted (the last number is repeated) or read past the end of the line, and lines over 1022 characters are cut. Proved: all other inputs are read exactly, missing rows are errors, and the witnesses."
  },
  {
   "property": "C32",
   "status": "partial",
   "theorems": [
    "Verif.Props.Names.C32_distinct_iff",
    "Verif.Props.Names.C32_clash",
    "Verif.Props.Names.C32_default_names_partial",
    "Verif.Props.Names.C32_identifiers_iff"
   ],
   "note": "False of the code for more than 28 parameters beside iterators: the exact range of distinct names and of valid identifiers is proved."
  },
  {
   "property": "C33",
   "status": "proved",
   "theorems": [
    "Verif.Props.Names.C33_name_at_level",
    "Verif.Props.Names.C33_scalarize",
    "Verif.Props.Names.C33_scalarized_level"
   ],
   "note": "Names by level, with and without scalar dimensions, after scalarization."
  },
  {
   "property": "C34",
   "status": "partial",
   "theorems": [
    "Verif.Props.Filter.C34_no_duplicates",
    "Verif.Props.Filter.C34_stmts_sound",
    "Verif.Props.Filter.C34_filter_partial",
    "Verif.Props.Filter.C34_after_assignment",
    "Verif.Props.Filter.C34_after_block",
    "Verif.Props.Filter.C34_wrong_loop",
    "Verif.Props.Filter.C34_exact_duplicates"
   ],
   "note": "All trees: no duplicates, only statements of the tree. Trees without assignments and blocks: exactly the statements and the accepted loops (C34_filter_partial). False with assignments or blocks, where the traversal stops (C34_after_assignment, C34_after_block, C34_wrong_loop), and for exact filters with duplicates (C34_exact_duplicates)."
  },
  {
   "property": "C35",
   "status": "proved",
   "theorems": [
    "Verif.Props.PPrint.C35_expression",
    "Verif.Props.PPrint.C35_statements",
    "Verif.Props.PPrint.C35_program",
    "Verif.Props.PPrint.C35_tree_text_partial",
    "Verif.Props.PPrint.C35_wrong_mod",
    "Verif.Props.PPrint.C35_wrong_decr",
    "Verif.Props.PPrint.C35_wrong_zero"
   ],
   "note": "Text, longest-match lexing and C precedences: the text of a generated expression or program can be read in exactly one way and has the value/executions of the clast, for every program cloog_clast_create makes. Assumes names are identifiers, strides positive, existential definitions not floor(0/d), isl_aff_floor adds no constant as an existential; exact integers. Hand-made expressions outside this set are misprinted (C35_wrong_*). Fortran, OpenScop bodies and parallel annotations are not part of this claim."
  },
  {
   "property": "C36",
   "status": "proved",
   "theorems": [
    "Verif.Props.PText.C36_balanced",
    "Verif.Props.PText.C36_fortran",
    "Verif.Props.PText.C36_same_text",
    "Verif.Props.PText.C36_fortran_block",
    "Verif.Props.PPrint.C36_balanced_partial",
    "Verif.Props.PText.C36_stops",
    "Verif.Props.ProgBrackets.C36_program",
    "Verif.Props.OslText.C36_scop"
   ],
   "note": "All clasts, both languages, all annotations and OpenScop bodies whose own text is balanced: C36_balanced (brackets closed in order, number of closing braces), C36_fortran (DO/IF lines closed by their own ends; without OpenScop bodies, names without blanks). C36_same_text: in C without annotations the text is that of Model.PPrint, for which C35 is proved. C36_fortran_block: blocks are printed with braces in Fortran too. C36_stops: the printer stops early only for a Fortran loop without a bound. C36_program: the same for the text of a whole program with -compilable or -callable."
  },
  {
   "property": "C37",
   "status": "proved",
   "theorems": [
    "Verif.Props.Program.C37_extract_scalars",
    "Verif.Props.Program.C37_no_error"
   ],
   "note": "For every list of statements with scatterings of one length: the removed dimensions are exactly those that are constant for every statement; putting the stored values back gives the original date, so the order of dates is unchanged; the error stop in the code is unreachable. The two backend questions (is a dimension constant, erase a dimension) are parameters with stated laws, instantiated in an example."
  },
  {
   "property": "C38",
   "status": "proved",
   "theorems": [
    "Verif.Props.Program.C38_program_block",
    "Verif.Props.LoopBlock.C38_loop_block"
   ],
   "note": "cloog_program_block: every statement is kept, in order, in groups that follow each other in the list; merged statements have equal domains and the order of dates is kept. cloog_loop_block: every statement kept in order, merged statements have the domain of their block. Whether cloog_loop_block keeps the order of dates is C50."
  },
  {
   "property": "C39",
   "status": "proved",
   "theorems": [
    "Verif.Props.RefCount.C39_release_once",
    "Verif.Props.RefCount.C39_release_when_last",
    "Verif.Props.RefCount.C39_statements",
    "Verif.Props.RefCount.C39_loop_copy",
    "Verif.Props.RefCount.C39_loop_free",
    "Verif.Props.RefCount.C39_loop_roundtrip"
   ],
   "note": "All histories of alloc/copy/free/merge on held handles for blocks, strides and name tables, and copying/freeing loop trees. Null pointers are no-ops for blocks and strides and are left out; cloog_names_free of null is outside the contract."
  },
  {
   "property": "C40",
   "status": "proved",
   "theorems": [
    "Verif.Props.EqTable.C40_same_solutions",
    "Verif.Props.EqTable.C40_eliminates",
    "Verif.Props.EqTable.C40_only_one",
    "Verif.Props.EqTable.C40_first_row_kept"
   ],
   "note": "Exact integers (GMP). All matrices whose rows have the common width. C40_same_solutions: same rational solutions. C40_eliminates, C40_only_one: after the first defining equality the level variable is gone. C40_first_row_kept: a row before it keeps the variable."
  },
  {
   "property": "C41",
   "status": "proved",
   "theorems": [
    "Verif.Props.EqTable.C41_table",
    "Verif.Props.EqTable.C41_solved",
    "Verif.Props.EqTable.C41_simplify",
    "Verif.Props.EqTable.C41_set",
    "Verif.Props.EqTable.C41_once",
    "Verif.Props.EqTable.C41_type_stale"
   ],
   "note": "Exact integers (GMP). Tables built by any sequence of recording (level above those active, no deeper iterator in the row) and removal. C41_table: the rows of the table hold exactly where the given equalities hold. C41_solved: a recorded row contains no outer iterator that has a row, and a nonzero coefficient for its own level. C41_simplify, C41_set: simplified rows hold at the same points. C41_once: the equality recorded for a loop that runs once gives the iterator its bound. C41_type_stale: the recorded type is that of the row given, not of the row stored."
  },
  {
   "property": "C42",
   "status": "partial",
   "theorems": [
    "Verif.Props.UnionDomain.C42_calls",
    "Verif.Props.UnionDomain.C42_names",
    "Verif.Props.UnionDomain.C42_statements",
    "Verif.Props.UnionDomain.C42_dates_partial",
    "Verif.Props.UnionDomain.C42_some_scatterings_crash",
    "Verif.Props.UnionDomain.C42_misaligned"
   ],
   "note": "All call sequences: domains in call order, dimension counts, last names, first misuse reported (C42_calls); names of the program, given or default (C42_names); statements numbered 1..n in order with their names (C42_statements); dates of every instance when all domains have a scattering (C42_dates_partial). False when only some domains have one: crash by default (C42_some_scatterings_crash), scattering applied to the wrong domain with -noblocks (C42_misaligned)."
  },
  {
   "property": "C43",
   "status": "partial",
   "theorems": [
    "Verif.Props.ImportSet.C43_distinct_partial",
    "Verif.Props.ImportSet.C43_clash",
    "Verif.Props.ImportSet.C43_clash_default",
    "Verif.Props.ImportSet.C43_import"
   ],
   "note": "All lists of names: distinct from each other and from the parameters unless a wanted name is another one plus an underscore and digits, or equals the default name of an earlier unnamed dimension (C43_distinct_partial). False without these: C43_clash (i_1, i), C43_clash_default (unnamed, i0)."
  },
  {
   "property": "C44",
   "status": "partial",
   "theorems": [
    "Verif.Props.Stop.C44_stop_partial",
    "Verif.Props.Stop.C44_first_iterators_partial",
    "Verif.Props.Stop.C44_ignored_below_last",
    "Verif.Props.Stop.kept_plain"
   ],
   "note": "Every instance is executed at its kept iterators, only kept iterators are used, no dimension beyond the depth is scanned, and stopped statements are guarded only by the enclosing loop. Missing: -l (below it the option is ignored, C44_ignored_below_last), f = 0 and first-unroll = 0, strides of merged loops that differ."
  },
  {
   "property": "C45",
   "status": "partial",
   "theorems": [
    "Verif.Props.DivExpr.C45_exact",
    "Verif.Props.DivExpr.C45_wrong",
    "Verif.Props.DivExpr.C45_columns_partial"
   ],
   "note": "The expression is right for all values of the variables exactly when all coefficients and the constant of the definition are coprime to the denominator (C45_exact); false otherwise (C45_wrong: floor((2i+j)/4) becomes floord(i+j,4)). Nested definitions: C45_columns_partial. That isl hands out coefficients in lowest terms is isl's behaviour, taken from its sources' documentation."
  },
  {
   "property": "C46",
   "status": "partial",
   "theorems": [
    "Verif.Props.OtlOff.C46_loop_right_iff_partial",
    "Verif.Props.OtlOff.C46_otl0_wrong_instance",
    "Verif.ClastGen.insertPair_spec",
    "Verif.ClastGen.insertEquation_spec"
   ],
   "note": "Exact characterisation: the loop for an equality is right if and only if the equality has an integer solution (no modulo test is generated); witness 2i=N with N=3 executes an instance that does not exist. Pairs of inequalities are always right, and C25 covers whole trees with -otl 0 when the equalities have solutions."
  },
  {
   "property": "C47",
   "status": "partial",
   "theorems": [
    "Verif.Props.ClastNames.C47_names_partial",
    "Verif.Props.ClastNames.C47_second_existential"
   ],
   "note": "Read and set variables of everything cloog_clast_create builds are iterators or parameters, if no constraint involves two existentials; false otherwise (C47_second_existential). isl_aff_floor and the reduction of equalities are assumed not to add columns."
  },
  {
   "property": "C48",
   "status": "proved",
   "theorems": [
    "Verif.Props.Matrix.C48_round_trip",
    "Verif.Props.Matrix.C48_gmp",
    "Verif.Props.Matrix.C48_long_long",
    "Verif.Props.Matrix.C48_no_columns",
    "Verif.Props.Matrix.C48_long_row"
   ],
   "note": "For both number types; the two limits are shown to be necessary."
  },
  {
   "property": "C49",
   "status": "partial",
   "theorems": [
    "Verif.Props.OneCopy.C49_no_duplication_partial",
    "Verif.Props.OneCopy.C49_calls_partial",
    "Verif.Props.OneCopy.C49_union"
   ],
   "note": "For all inputs whose domains are single polyhedra: the blocks of the generated and simplified loops, and the calls in the code built from them, are those of the input up to order, none more often. Assumed of isl: intersection, extension, projection, strides and hulls of single polyhedra are single polyhedra (projection can split a set with integer divisions), sorting permutes. Partial because it is false for union domains (C49_union) and when a bounded union has an unbounded hull."
  },
  {
   "property": "C50",
   "status": "partial",
   "theorems": [
    "Verif.Props.LoopBlock.C50_two_phases",
    "Verif.Props.LoopBlock.C50_crossing",
    "Verif.Props.LoopBlock.C50_loop_block_partial"
   ],
   "note": "False in general: two witnesses, one of them with injective dates. Proved when the scalar dimensions form one run and no statement has two instances with the same date."
  },
  {
   "property": "C51",
   "status": "proved",
   "theorems": [
    "Verif.Props.Equations.C51_assignment",
    "Verif.Props.Equations.eqType_exaffine"
   ],
   "note": "The kind of the equality is characterised by its coefficients, independently of the loops over columns. The equation is the one recorded for the level; the modulo guard in front of it is C12-C15."
  },
  {
   "property": "C52",
   "status": "partial",
   "theorems": [
    "Verif.Props.PText.C52_stride_glued",
    "Verif.Props.PText.C52_c_partial"
   ],
   "note": "False for Fortran: every loop with a positive constant bound and stride above 1 is printed as another loop with stride 1 (C52_stride_glued). Proved for C (C52_c_partial)."
  },
  {
   "property": "C53",
   "status": "partial",
   "theorems": [
    "Verif.Props.Parallel.C53_parallel_partial",
    "Verif.Props.Steady.C80_parallel_partial",
    "Verif.Props.Parallel.C53_nested",
    "Verif.Props.Parallel.C53_fortran"
   ],
   "note": "Proved for C, for programs where no parallel loop changes its own bound (C53_parallel_partial), which generated programs do not unless parallel loops are nested (C80_parallel_partial). False for nested parallel loops (C53_nested) and for Fortran (C53_fortran)."
  },
  {
   "property": "C54",
   "status": "proved",
   "theorems": [
    "Verif.Props.EqTable.C54_reduce",
    "Verif.Props.EqTable.C54_same_guard"
   ],
   "note": "Exact integers (GMP), same tables as C41. C54_reduce: length, flag, modulus kept and the rest congruent; C54_same_guard: same existence of an integer value."
  },
  {
   "property": "C55",
   "status": "partial",
   "theorems": [
    "Verif.Props.PText.C55_bodies_partial",
    "Verif.Props.PText.C55_ten"
   ],
   "note": "Proved for markers of one digit, all texts. Missing part is false: markers 10 to 99 (C55_ten: reads a number that is not there). The replacement of identifiers by markers is done by the OpenScop library and not modelled."
  },
  {
   "property": "C56",
   "status": "partial",
   "theorems": [
    "Verif.Props.ProgText.C56_callable",
    "Verif.Props.ProgText.C56_compilable",
    "Verif.Props.ProgText.C56_callable_defs",
    "Verif.Props.ProgText.C56_compilable_defs",
    "Verif.Props.ProgText.C56_callable_call",
    "Verif.Props.ProgText.C56_compilable_call",
    "Verif.Props.ProgText.C56_named",
    "Verif.Props.ProgText.C56_empty",
    "Verif.Props.ProgText.C56_hash"
   ],
   "note": "One macro per statement and its meaning, for identifiers other than hash, total and printf as iterators and statements without names. False otherwise: C56_named, C56_empty, C56_hash."
  },
  {
   "property": "C57",
   "status": "partial",
   "theorems": [
    "Verif.Props.ProgText.C57_callable",
    "Verif.Props.ProgText.C57_compilable",
    "Verif.Props.ProgText.C57_declared_partial",
    "Verif.Props.ProgText.C57_once",
    "Verif.Props.ProgText.C57_total"
   ],
   "note": "Everything the code uses is declared (given C47's hypothesis), nothing twice; an iterator called total is declared twice by -compilable (C57_total)."
  },
  {
   "property": "C58",
   "status": "partial",
   "theorems": [
    "Verif.Props.Pipeline.C58_simplified_partial",
    "Verif.Props.Pipeline.C58_text_partial",
    "Verif.Props.Pipeline.trace_unique",
    "Verif.Props.Pipeline.simplify_outline"
   ],
   "note": "Generation, simplification, clast and text composed. Assumed: contracts of the isl operations (SimpLaws, ConvLaws, StrideLaws), that the constraint sets describe the domains of the simplified tree (Faithfuls), the hypotheses of C24 (no -stop, default last level, statements of fitting depth), bounded loops, and the hypotheses of C25 on the constraints (WfLoops) and of C35 on names."
  },
  {
   "property": "C59",
   "status": "proved",
   "theorems": [
    "Verif.Props.EqType.C59_spread",
    "Verif.Props.EqType.C59_isl",
    "Verif.Props.EqType.C59_matrix"
   ],
   "note": "Both backends. C59_spread is for equalities given by one constraint (pairs of inequalities are never spread), with otl."
  },
  {
   "property": "C60",
   "status": "partial",
   "theorems": [
    "Verif.Props.Input.C60_read",
    "Verif.Props.Input.C60_dump_read_partial",
    "Verif.Props.InputEx.C60_statement_names_lost",
    "Verif.Props.InputEx.C60_scattering_dropped",
    "Verif.Props.InputEx.C60_scattering_null",
    "Verif.Props.InputEx.C60_name_blank",
    "Verif.Props.InputEx.C60_name_null",
    "Verif.Props.InputEx.C60_long_name",
    "Verif.Props.InputEx.C60_truncated",
    "Verif.Props.InputEx.C60_truncated_input",
    "Verif.Props.InputEx.C60_language_column",
    "Verif.Props.InputEx.C60_wrong_number"
   ],
   "note": "Full statement false: names of statements are lost, scatterings of only some statements are dropped or crash, names with blanks or of 50 characters and more, and unset names, are not kept; a truncated file is read for ever. Proved for all files of the format and for the dump of all other inputs; isl's reading and printing of relations are parameters."
  },
  {
   "property": "C61",
   "status": "proved",
   "theorems": [
    "Verif.Props.InputEx.C61_domain",
    "Verif.Props.InputEx.C61_context",
    "Verif.Props.InputEx.C61_scattering",
    "Verif.Props.InputEx.C61_wrong_parameters"
   ],
   "note": "Relations as sets of integer points; isl's move_dims renames dimensions. A number of parameters that is neither 0 nor right is not noticed (C61_wrong_parameters)."
  },
  {
   "property": "C62",
   "status": "proved",
   "theorems": [
    "Verif.Props.IslSet.C62_unroll",
    "Verif.Props.IslSet.C62_best",
    "Verif.Props.IslSet.C62_union",
    "Verif.Props.IslSet.exact_laws"
   ],
   "note": "isl_set_max_val and the removal of redundant constraints are given by their specification (IslLaws). C62_best: the bound with the fewest copies is used. C62_union: false for unions, which code generation does not unroll."
  },
  {
   "property": "C63",
   "status": "partial",
   "theorems": [
    "Verif.Props.IslSet.C63_inside",
    "Verif.Props.IslSet.C63_keeps_partial",
    "Verif.Props.IslSet.C63_start",
    "Verif.Props.IslSet.C63_same_bound",
    "Verif.Props.IslSet.C63_again",
    "Verif.Props.IslSet.C63_lost"
   ],
   "note": "Missing: equalities in which the coefficient of the iterator has a common factor with the stride; C63_lost shows that points are lost there."
  },
  {
   "property": "C64",
   "status": "partial",
   "theorems": [
    "Verif.Props.IslSet.C64_partition",
    "Verif.Props.IslSet.C64_bounded_partial",
    "Verif.Props.IslSet.C64_unbounded"
   ],
   "note": "The partition is proved in full. Bounds are proved where the first bounds depend on parameters only; C64_unbounded shows that it is false with outer iterators."
  },
  {
   "property": "C65",
   "status": "proved",
   "theorems": [
    "Verif.Props.Macro.C65_macros",
    "Verif.Props.Macro.C65_callable",
    "Verif.Props.Macro.C65_compilable"
   ],
   "note": "Exact integers; okE describes the expressions of generated code (C35_program shows that all are). C65_callable, C65_compilable: no name of the program changes which definitions are used. Bodies are not scanned again after replacement, as they contain no macro names."
  },
  {
   "property": "C66",
   "status": "partial",
   "theorems": [
    "Verif.Props.StrideBound.C66_first_partial",
    "Verif.Props.StrideBound.C66_skips"
   ],
   "note": "The bound built by cloog_constraint_stride_lower_bound is the least value of the class that satisfies the constraint, if the new existential has a definition in lowest terms; otherwise iterations are skipped (C66_skips). isl_aff_floor is a contract (FloorLaws), with an instance."
  },
  {
   "property": "C67",
   "status": "partial",
   "theorems": [
    "Verif.Props.Annotate.C67_annotations_partial",
    "Verif.Props.Annotate.C67_lost",
    "Verif.Props.Annotate.C67_wrong_loop",
    "Verif.Props.Annotate.C67_mpi_dropped",
    "Verif.Props.Annotate.C67_bounds_declared",
    "Verif.Props.Annotate.C67_user_ignored",
    "Verif.Props.Annotate.C67_iterators_partial",
    "Verif.Props.OslText.C67_declarations"
   ],
   "note": "Proved for all trees without assignments and blocks; false with them (C67_lost, C67_wrong_loop, proved). Bound variables are declared for all trees. MPI directives are dropped and user directives without OpenMP have no effect (proved); iterators are undeclared if the file cannot be opened (proved)."
  },
  {
   "property": "C68",
   "status": "proved",
   "theorems": [
    "Verif.Props.Annotate.C68_surrounding_text"
   ],
   "note": "The whole text of cloog_program_osl_pprint, for all files and coordinates that name places of the file, with the end not before the start."
  },
  {
   "property": "C69",
   "status": "partial",
   "theorems": [
    "Verif.Props.Separated.C69_no_idle_iterations_partial",
    "Verif.Props.Separated.C69_constant"
   ],
   "note": "For all statement lists, scatterings and -f >= 1 (no -l, -stop, -backtrack, unrolling, fs/ls): every loop at a position from -f on whose iterator takes two values for some outer values has, in each iteration, an instance of each statement inside it. Assumes exact projections (isl's cloog_domain_project drops the existentially quantified variables that involve the projected dimensions and may enlarge the set) and that a constant iterator has its value. False for levels with a constant value, which are merged instead of separated: C69_constant."
  },
  {
   "property": "C70",
   "status": "partial",
   "theorems": [
    "Verif.Props.Terminates.C70_terminates_partial",
    "Verif.Props.Terminates.C70_unroll_partial",
    "Verif.Props.Terminates.C70_follows"
   ],
   "note": "All options: C70_terminates_partial without unrolling, C70_unroll_partial with it (positive -first-unroll; loops are never unrolled to nothing). Proved from TermLaws: calls of isl return, cloog_domain_sort returns (C19 shows that it may not), subtraction of sets without overlap does not split a polyhedron; with unrolling also from GenLaws for all operations but the sort."
  },
  {
   "property": "C71",
   "status": "proved",
   "theorems": [
    "Verif.Props.Fused.C71_one_nest"
   ],
   "note": "From GenLaws, reflexivity of the test for equality, and bounded hulls of bounded sets."
  },
  {
   "property": "C72",
   "status": "proved",
   "theorems": [
    "Verif.Props.LastLevel.C72_alone",
    "Verif.Props.LastLevel.C72_same_above"
   ],
   "note": "Tree shape with -l, and comparison with the run without -l. The second theorem assumes no -backtrack, -strides, unrolling."
  },
  {
   "property": "C73",
   "status": "partial",
   "theorems": [
    "Verif.Props.MatrixConv.C73_domain",
    "Verif.Props.MatrixConv.C73_scattering_ignored",
    "Verif.Props.MatrixConv.C73_scattering_wrong",
    "Verif.Props.MatrixConv.C73_scattering_partial",
    "Verif.Props.MatrixConv.C73_bounds",
    "Verif.Props.MatrixConv.C73_cube"
   ],
   "note": "Proved for domains, bounds and cubes. False for scatterings: the dates are never restricted, whatever the matrix (C73_scattering_ignored, C73_scattering_wrong); C73_scattering_partial is the case without dimensions."
  },
  {
   "property": "C74",
   "status": "partial",
   "theorems": [
    "Verif.Props.OslImport.C74_import",
    "Verif.Props.OslImport.C74_refused",
    "Verif.Props.OslImport.C74_language",
    "Verif.Props.OslImport.C74_unnamed_parameter"
   ],
   "note": "Proved for scops whose statements all have a domain; scops that name only some parameters leave the others nameless (C74_unnamed_parameter). The OpenScop library is outside the model."
  },
  {
   "property": "C75",
   "status": "partial",
   "theorems": [
    "Verif.Props.Fortran.C75_program_partial",
    "Verif.Props.Fortran.C75_expression_partial",
    "Verif.Props.Fortran.C75_rounded"
   ],
   "note": "For all expressions of all generated programs (C75_program_partial), and for hand-made ones whose text has a class in Fortran (lev e <= 3: no sign after an operator, positive divisors); names are identifiers, operands of real divisions at most 2^p. Proved wrong beyond that bound (C75_rounded). Assumed of isl: definitions of existentials have a numerator and a positive denominator. Assumed of Fortran: the grammar and values in Model/FText, exact integers, reals with p binary digits, unbounded exponent, rounding to nearest. Statements around the expressions (DO, IF) are not read as Fortran."
  },
  {
   "property": "C76",
   "status": "partial",
   "theorems": [
    "Verif.Props.FNames.C76_distinct_iff",
    "Verif.Props.FNames.C76_fortran_names_partial",
    "Verif.Props.FNames.C76_clash"
   ],
   "note": "Exactly if there is no parameter or at most four iterators (C76_distinct_iff, for the numbers of names that are identifiers, C32); false otherwise (C76_clash)."
  },
  {
   "property": "C77",
   "status": "partial",
   "theorems": [
    "Verif.Props.ProgDump.C77_dump_read_partial",
    "Verif.Props.ProgDump.C77_blocks_lost",
    "Verif.Props.ProgDump.C77_no_statements",
    "Verif.Props.ProgDump.C77_union_scattering"
   ],
   "note": "Proved for programs with at least one loop, one statement in each block, a context and a first scattering that are single polyhedra. The negation is proved for blocks of several statements, programs without statements, and a first scattering with several polyhedra."
  },
  {
   "property": "C78",
   "status": "partial",
   "theorems": [
    "Verif.Props.FProg.C78_statements_partial",
    "Verif.Props.FProg.C78_program_partial",
    "Verif.Props.FProg.C78_tree_partial",
    "Verif.Props.FProg.C78_stride",
    "Verif.Props.FProg.C78_block"
   ],
   "note": "The text is one Fortran program and its runs make the calls of the tree. Missing: strides (false: C78_stride), blocks (false: C78_block), large operands of divisions (C75_rounded), names that differ only in case (C76_clash). That loops keep the variables of their bounds is derived (C80)."
  },
  {
   "property": "C79",
   "status": "partial",
   "theorems": [
    "Verif.Props.Arrays.C79_bound",
    "Verif.Props.Arrays.C79_minmax",
    "Verif.Props.Arrays.C79_loop_bound",
    "Verif.Props.Arrays.C79_conditions",
    "Verif.Props.Arrays.C79_modulo_iff",
    "Verif.Props.Arrays.C79_modulo_partial",
    "Verif.Props.Arrays.C79_program_partial",
    "Verif.Props.Arrays.C79_overflow",
    "Verif.Props.Arrays.C79_program_overflow"
   ],
   "note": "False for modulo conditions (C79_overflow: with n > 2 parameters in the offset of a stride, an array of two elements gets n; C79_program_overflow: a whole tree). Proved for bounds, minima and maxima, and conditions in general, for modulo tests exactly when the array is long enough (C79_modulo_iff), and for whole trees whose strides have offsets with one column at most. The array of integer divisions (div_expr) and the arrays of the recorded equalities and strides are not modelled."
  },
  {
   "property": "C80",
   "status": "partial",
   "theorems": [
    "Verif.Props.Steady.C80_fixed_partial",
    "Verif.Props.Steady.C80_count_partial",
    "Verif.Props.Steady.C80_tree_partial",
    "Verif.Props.Steady.C80_parallel_partial",
    "Verif.Props.Steady.C80_existential"
   ],
   "note": "Proved for trees whose bounds use outer iterators, parameters and existentials defined by them, which holds of the trees of C25 (C80_tree_partial); C80_parallel_partial derives from it the hypothesis of C53 about bounds. False for existentials defined by the iterator (C80_existential)."
  },
  {
   "property": "C81",
   "status": "partial",
   "theorems": [
    "Verif.Props.Callable.C81_closed",
    "Verif.Props.Callable.C81_runs",
    "Verif.Props.Callable.C81_program",
    "Verif.Props.Callable.C81_tree_partial",
    "Verif.Props.Callable.C81_rounds_partial",
    "Verif.Props.Callable.C81_thousand",
    "Verif.Props.Callable.C81_twothousand",
    "Verif.Props.Callable.C81_lost",
    "Verif.Props.Callable.C81_fortran"
   ],
   "note": "C81_closed, C81_runs and C81_program hold for all loop trees and C. C81_tree_partial inherits the hypotheses of C25. C81_rounds_partial leaves out strides whose offset is given by a constraint and bounds that use an existential defined by the iterator. C81_lost: an instance in the domain that is not executed. C81_fortran: for Fortran the text can have two operators in a row, which is no Fortran."
  },
  {
   "property": "C82",
   "status": "partial",
   "theorems": [
    "Verif.Props.Order.C82_bounds",
    "Verif.Props.Order.C82_tree_partial",
    "Verif.Props.Order.C82_cycle",
    "Verif.Props.Order.C82_first"
   ],
   "note": "Bounds proved without conditions. Whole trees: if no two constraints define the same iterator, no variable has an equality and an inequality among the conditions of one guard, and names differ. False in general: C82_cycle (comparison goes round in a circle), C82_first."
  },
  {
   "property": "C83",
   "status": "partial",
   "theorems": [
    "Verif.Props.LoopCount.C83_balance",
    "Verif.Props.LoopCount.C83_freed_partial",
    "Verif.Props.LoopCount.C83_leak"
   ],
   "note": "The balance is proved for all inputs and options: allocated - freed at the end is the number of loops lost. Nothing is lost if all statements have the same depth or the scattering does not end with a scalar dimension; otherwise cloog_loop_generate_scalar can lose loops (C83_leak). Only loops are counted, not domains, blocks and statements."
  },
  {
   "property": "C84",
   "status": "partial",
   "theorems": [
    "Verif.Props.BlockCount.C84_safe",
    "Verif.Props.BlockCount.C84_simplify",
    "Verif.Props.BlockCount.C84_balance",
    "Verif.Props.BlockCount.C84_generate_partial",
    "Verif.Props.BlockCount.C84_freed_partial",
    "Verif.Props.BlockCount.C84_leak"
   ],
   "note": "No block is freed too early: proved for all inputs and options (C84_safe, C84_simplify). That none is freed too late is proved when all statements have the same depth or the scattering does not end with a scalar dimension; otherwise cloog_loop_generate_scalar can drop a loop with its pointer (C84_leak). Only references by loops are counted, not those by the list of blocks of the program."
  },
  {
   "property": "C85",
   "status": "proved",
   "theorems": [
    "Verif.Props.DefPair.C85_pair_exact",
    "Verif.Props.DefPair.C85_pair_meaning",
    "Verif.Props.DefPair.C85_equality_first",
    "Verif.Props.DefPair.C85_equality_defines",
    "Verif.Props.DefPair.C85_equalities_differ",
    "Verif.Props.DefPair.C85_contains"
   ],
   "note": "Matrix backend: exact answers of the two searches and what they mean at integer points. The equality found is the first one; the comment that the others are equivalent is false (C85_equalities_differ)."
  },
  {
   "property": "C86",
   "status": "partial",
   "theorems": [
    "Verif.Props.ImportMap.C86_import",
    "Verif.Props.ImportMap.C86_distinct_iff",
    "Verif.Props.ImportMap.C86_clash",
    "Verif.Props.ImportMap.C86_dates_partial",
    "Verif.Props.ImportMap.C86_empty",
    "Verif.Props.ImportMap.C86_ranges"
   ],
   "note": "Statements, names of statements and parameters, and the number of dimensions for all union maps (C86_import); dates without blocking, when all maps have as many output dimensions (C86_dates_partial), otherwise an error (C86_ranges). The names of the program differ exactly when no parameter is called like a default iterator or scattering dimension (C86_distinct_iff); false otherwise (C86_clash)."
  },
  {
   "property": "C87",
   "status": "partial",
   "theorems": [
    "Verif.Props.GivenNames.C87_parameters_given",
    "Verif.Props.GivenNames.C87_iterators_given",
    "Verif.Props.GivenNames.C87_scattering_given",
    "Verif.Props.GivenNames.C87_two_given",
    "Verif.Props.GivenNames.C87_no_scattering",
    "Verif.Props.GivenNames.C87_clash",
    "Verif.Props.GivenNames.C87_wrong_program"
   ],
   "note": "False of the code: given names are not compared with default ones. Exactly when all names differ is proved for one and for two kinds of given names with a scattering, and for programs without one. The consequence for the generated program is proved for one clash (a loop that does not end), not for all."
  },
  {
   "property": "C88",
   "status": "proved",
   "theorems": [
    "Verif.Props.ClastMem.C88_free",
    "Verif.Props.ClastMem.C88_no_sharing",
    "Verif.Props.ClastMem.C88_copy",
    "Verif.Props.ClastMem.C88_copy_survives",
    "Verif.Props.ClastMem.C88_for_bound",
    "Verif.Props.ClastMem.C88_equation_loop"
   ],
   "note": "Memory of clast expressions only: copying, freeing, and the two places that derive a bound from another one. The rest of the code generation is not modelled at this level."
  },
  {
   "property": "C89",
   "status": "proved",
   "theorems": [
    "Verif.Props.ClastFree.C89_free",
    "Verif.Props.ClastFree.C89_build_free"
   ],
   "note": "Nodes of statements and expressions and the strings of loops. References to domains, statements and names are not part of the model, and neither is the order in which cloog_clast_create allocates nodes."
  },
  {
   "property": "C90",
   "status": "partial",
   "theorems": [
    "Verif.Props.Messages.C90_quiet",
    "Verif.Props.Messages.C90_similar",
    "Verif.Props.Messages.C90_not_warned",
    "Verif.Props.Messages.C90_scatter",
    "Verif.Props.Messages.C90_silent",
    "Verif.Props.Messages.C90_last",
    "Verif.Props.Messages.C90_changed_silently",
    "Verif.Props.Messages.C90_quiet_order",
    "Verif.Props.Messages.C90_unknown"
   ],
   "note": "Exact conditions for the warnings on scatterings, on -l and on unknown options (command lines without errors and -openscop). False where -q hides warnings and where equal scatterings are written differently."
  }
 ]
}