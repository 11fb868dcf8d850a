# Formal model of CLooG: design

The source is `/repo` (periscop/cloog, read as text, never built). The model is in Lean 4 under
`lean/Verif/`. This file was written before the proofs and is kept up to date with them.

## Layout

* `lean/Verif/Model/*.lean`: the model. Each definition cites the file and lines it models;
  simplifications are stated in the same comment. `FinDom` and `BoxDom` are not models of code: they
  are concrete domain types that meet the assumed isl contracts. `LoopSem`, `ClastSem` and `CText` are
  specifications: what a loop tree, a clast and a C text mean.
* `lean/Verif/Lemmas/*.lean`: helper lemmas.
* `lean/Verif/Props/*.lean`: the property theorems, their small specifications, and the concrete
  examples that meet their hypotheses. Theorem names start with the property's id.
* `properties.jsonl`: the properties. `MANIFEST.json`: which theorems carry which property, and what is
  missing. `seeded/LOG.jsonl`: mutation tests of the model.

Theorems whose name ends in `_partial` prove a property only under a restriction that is stated at the
theorem. Theorems without an id in the middle of the name such as `C13_negative_operand` or
`C24_scalar_drops` are witnesses: the negation of the full property for a concrete input.

## Trusted base

* Lean 4.33.0's kernel, and the axioms listed in "Axioms" (only `propext`, `Classical.choice` and
  `Quot.sound`; no `sorry`, no `native_decide`, no axioms of our own).
* The reading of the C code: the model is a hand translation, function by function.
* The specifications (`LoopSem`, `ClastSem`, `CText`, for Fortran `FText` and `FReal`, and the definitions next to the theorems).
* The properties of external code that are hypotheses of theorems, next section.

### Modelling conventions

* `cloog_int_t` is an unbounded `Int` (the GMP build) unless a property is explicitly about
  fixed-width integers (C01, C02, C04, C08, C20). C's `/` and `%` are `Int.tdiv` and `Int.tmod`.
* Linked lists and trees are Lean lists and inductive trees; in-place updates are functions returning
  the new value; ownership is left out, except in `RefCount` (C39), `LoopCount` (C83) and `BlockCount` (C84).
* Loops whose termination rests on external code, or is itself in question, carry fuel; `none` means
  that the fuel was too small. Undefined behaviour and failed assertions are `none` too.
* `malloc` does not fail. `qsort` returns a sorted permutation (`Perm`, sorted by the comparator) and is
  only used where the comparator is a preorder, or is an arbitrary permutation where the order does not
  matter. `strtol`, `sscanf` and `fgets` are small functions stated next to their use.

### Assumed contracts of external code

isl is not modelled. Where CLooG calls isl through `cloog_domain_*`, the model takes the operations as
fields of a structure (`DomOps` in `Model/Loop.lean`, `Ctx` in `Model/ClastGen.lean`), and the theorems
take their laws as hypotheses:

* `SetLaws` (`Props/Separate.lean`): intersection, union, difference, cutting off the first convex part,
  emptiness and the lazy comparisons are sound with respect to points.
* `GenLaws` (`Lemmas/Gen.lean`): the above with dimensions; projection and hulls contain the set;
  `cloog_domain_sort` and `isl_basic_set_compare_at`-based `follows` respect the order of points at a
  level; the bound splitter partitions; `can_unroll` and `fixed_offset` enumerate the values.
* `SimpLaws` (`Props/Simplify.lean`): gist and never-integral. `ConvLaws` (`Lemmas/GenShape.lean`): hulls
  are not unions, and intersections of sets that are not unions are none either.
* `Props/Stride.lean` (`ResidueOK`): isl's residue classes. `StrideLaws` (`Lemmas/GenRec.lean`): these,
  and strides found by `cloog_domain_list_stride` and the tightened lower bound lose no points. `AddStrideLaws` (`Lemmas/GenStop.lean`): adding the stride as
  a constraint loses no point of the stride. `Props/Program.lean`: the two questions
  asked about scalar dimensions. `Props/ClastExec.lean`: constraint sets describe the domains,
  reduction keeps the solutions. `Lemmas/StrideBound.lean` (`FloorLaws`): `isl_aff_floor` computes the floor.

Each law structure has a concrete instance in Lean (`finDom_laws`, `BoxDom.laws`, or one in the example
next to the theorem), so that no theorem is vacuous. The sort law is the one that is not always met by
the code: C19 shows where `cloog_domain_sort` fails.

## Which parts of the code are modelled

| source | model | not modelled |
|--------|-------|--------------|
| `include/cloog/int.h.in`, `source/int.c` | `IntOps` | the GMP functions themselves (taken as exact) |
| `source/clast.c` constructors, comparison, bounds, guards, `cloog_clast_create` | `Clast`, `Bound`, `ClastGen`; `ClastMem`, `ClastFree` for the memory of expressions and statements | sharing of nodes in `cloog_clast_create` |
| `source/clast.c` `clast_filter` | `Filter` | |
| `source/pprint.c` | `PPrint` (C, tokens), `PText` (both languages, characters) | reading the OpenScop body out of the scop |
| `source/loop.c` | `Loop`, `ScalarSort`, `Tarjan`, `RefCount` (copy, free), `LoopCount`, `BlockCount` | printing of loops, `state`, `unsimplified` fields |
| `source/isl/domain.c` | `DomainSort`, `IntOps` (`Euclid`, stride factor), `ImportSet`, lazy block in `Program`, `IslSet` (unrolling, strides, splitting by signs), `MatrixConv` (conversion of matrices and bounds) | everything that only calls isl |
| `source/isl/constraints.c` | `ClastGen` (equalities, bounds, bounds of strided loops; reduction and `isl_aff_floor` as contracts) | how isl represents `isl_aff` |
| `source/matrix/constraintset.c` | `EqTable` | the iteration callbacks; the PolyLib calls |
| `source/matrix.c` | `Matrix` | |
| `source/names.c` | `Names`, `RefCount`, `Input` (reading) | |
| `source/options.c` | `Options` | help and version text |
| `source/program.c` | `Program`, `UnionDomain` (`cloog_program_alloc`), `Options` (fixing), `ProgText` (`cloog_program_pprint`), `Annotate` (`annotate_loops`, `cloog_program_osl_pprint`) | the comment with times and memory |
| `source/union_domain.c` | `UnionDomain`, `Input` (reading), `OslImport` (OpenScop) | the OpenScop library |
| `source/input.c` | `Input`, `OslImport` (OpenScop) | the OpenScop library |
| `source/block.c`, `source/stride.c` | `RefCount`, `Loop` | |
| `source/state.c`, `source/statement.c`, `source/version.c`, `source/mp.c` | | all |

## Properties

| id | property | status | modules |
|----|----------|--------|---------|
| C01 | Emitted floord/ceild/max/min macros are exact | proved | Arith |
| C02 | Fixed-width integer division macros agree with GMP | proved | Arith |
| C03 | GCD and row normalisation keep the constraint's meaning | proved | Arith |
| C04 | Comparing two numbers is exact in every integer configuration | partial | Arith |
| C05 | A single constraint yields the exact integer bound | proved | Bounds |
| C06 | Loop bounds scan exactly the constrained values | proved | Bounds |
| C07 | Stride adjustment of a constant lower bound | proved | Arith |
| C08 | Expressions reported equal have equal values | proved | Expr |
| C09 | The expression comparator is a consistent order | partial | Bounds, Expr |
| C10 | A loop is dropped only when it never executes | proved | Equations, Expr |
| C11 | Guards are true exactly when the unscanned constraints hold | proved | Guards |
| C12 | Modulo guards test divisibility | proved | Guards |
| C13 | Pair-of-inequalities modulo guards test membership of an interval modulo m | partial | Guards |
| C14 | An unsatisfiable modulo condition suppresses the code | partial | Guards |
| C15 | Stride information is used soundly to simplify modulo guards | proved | Guards |
| C16 | Stride factor inverse | partial | Arith |
| C17 | Separation produces disjoint pieces with the right statements | proved | Separate |
| C18 | Splitting a union into disjoint convex pieces | proved | Separate |
| C19 | Domain sort returns a permutation compatible with the iteration order | partial | DomainSort |
| C20 | Scalar sort is a stable sort | proved | ScalarSort |
| C21 | Component decomposition respects the follows relation | proved | Tarjan |
| C22 | Detected strides are satisfied by all inner iterations | proved | Stride |
| C23 | Unrolling covers every iteration exactly once, in order | proved | LoopOps |
| C24 | Generated loop trees execute every instance exactly once in schedule order | partial | Generate |
| C25 | The clast executes the loop tree | partial | ClastExec |
| C26 | Simplification in context preserves the executed instances | proved | Simplify |
| C27 | Merging preserves instances when separation is off | proved | LoopOps |
| C28 | Per-statement first/last levels are combined by maximum | proved | LoopOps |
| C29 | Option fixing is idempotent and keeps separation outside scattering | proved | Options |
| C30 | Option values are validated | partial | Options |
| C31 | Matrix rows are read completely or rejected | partial | Matrix |
| C32 | Generated default names are pairwise distinct | partial | Names |
| C33 | Names at a level are the right ones | proved | Names |
| C34 | clast_filter reports all loops and statements below a node | partial | Filter |
| C35 | Printed C expressions parse back to the AST's value | proved | PPrint |
| C36 | Printed statements are well bracketed | proved | OslText, PPrint, PText, ProgBrackets |
| C37 | Scalar scattering dimensions are extracted without losing order | proved | Program |
| C38 | Blocking statements preserves per-iteration order | proved | LoopBlock, Program |
| C39 | Reference counting frees each object exactly once | proved | RefCount |
| C40 | Matrix-backend normalisation preserves the solution set | proved | EqTable |
| C41 | Matrix-backend equality spreading preserves solutions | proved | EqTable |
| C42 | Union-domain construction keeps statements, names and scatterings aligned | partial | UnionDomain |
| C43 | Renaming duplicate dimension names keeps names unique | partial | ImportSet |
| C44 | Statement stop level | partial | Stop |
| C45 | Integer divisions in generated code have the value of the constraint's existential | partial | DivExpr |
| C46 | Loops for fixed iterators without -otl | partial | ClastGen, OtlOff |
| C47 | Generated code only uses the variables of the program | partial | ClastNames |
| C48 | Printed matrices are read back | proved | Matrix |
| C49 | No code duplication without separation | partial | OneCopy |
| C50 | Blocking after scattering keeps the schedule's order | partial | LoopBlock |
| C51 | Equality spreading follows -esp and -fsp | proved | Equations |
| C52 | A loop's stride can be read from the printed loop | partial | PText |
| C53 | Parallel annotations do not change the sequential meaning of a program | partial | Parallel, Steady |
| C54 | Matrix-backend modulo guards survive reduction | proved | EqTable |
| C55 | OpenScop statement bodies are printed with their iterators substituted | partial | PText |
| C56 | Compilable and callable programs define what a statement does | partial | ProgText |
| C57 | Compilable and callable programs declare their variables | partial | ProgText |
| C58 | The printed program runs the statements | partial | Pipeline |
| C59 | Which equalities are spread | proved | EqType |
| C60 | Input files are read as written, and a dumped input can be read again | partial | Input, InputEx |
| C61 | Old and new formats of domains and scatterings mean the same | proved | InputEx |
| C62 | Unrolling covers a loop exactly once | proved | IslSet |
| C63 | Lower bounds for strided loops start at the right value and lose nothing | partial | IslSet |
| C64 | Splitting by parameter signs keeps every point and makes hulls bounded | partial | IslSet |
| C65 | The macros of generated programs expand to floor, ceiling, minimum and maximum | proved | Macro |
| C66 | A strided loop starts at the first value of its class | partial | StrideBound |
| C67 | Loop annotations of OpenScop input reach the loops they are about | partial | Annotate, OslText |
| C68 | Text around a SCoP is kept | proved | Annotate |
| C69 | Separated loops have no idle iterations | partial | Separated |
| C70 | Code generation terminates | partial | Terminates |
| C71 | Statements with the same domain share one loop nest | proved | Fused |
| C72 | -l stops the sharing of loops after the given depth, and changes nothing above it | proved | LastLevel |
| C73 | Domains and scatterings made from matrices and bounds mean what their rows say | partial | MatrixConv |
| C74 | An OpenScop scop is imported statement by statement | partial | OslImport |
| C75 | Expressions printed for Fortran have the same value there | partial | Fortran |
| C76 | Default names stay distinct in Fortran | partial | FNames |
| C77 | A program dumped as an input file is read back | partial | ProgDump |
| C78 | A program printed for Fortran, read as Fortran, runs the statements | partial | FProg |
| C79 | Code generation stays within the arrays it allocates | partial | Arrays |
| C80 | The number of iterations of a loop is known when it starts | partial | Steady |
| C81 | With -callable every loop is closed, and only loops without a bound change | partial | Callable |
| C82 | The generated code depends neither on the order of the constraints nor on the C library's qsort | partial | Order |
| C83 | At the end of a run as many loops have been freed as were allocated | partial | LoopCount |
| C84 | A block of statements is freed when, and only when, no loop needs it any more | partial | BlockCount |
| C85 | The matrix backend finds the constraints that define a variable, and only those | proved | DefPair |
| C86 | A global scattering given as an isl union map becomes the program it describes | partial | ImportMap |
| C87 | Names given by the user never clash with default names | partial | GivenNames |
| C88 | The bounds of loops share no memory, and freeing a clast frees them once | proved | ClastMem |
| C89 | Freeing a clast frees all its nodes, each once | proved | ClastFree |
| C90 | The user is warned when input is suspicious or an option is changed | partial | Messages |

How each is proved:

* C01-C04, C07, C16: `Props/Arith`. Division lemmas, loop invariants; machine integers as `Int` with an
  explicit range check.
* C05, C06: `Props/Bounds`. Case analysis over all rows, induction over the constraint list.
* C08-C10: `Props/Expr`. Structural induction over expressions.
* C11-C15: `Props/Guards`. Invariants over the scan of variables and constraints; congruences.
* C17, C18: `Props/Separate`. Induction, point by point.
* C19-C21: `DomainSort`, `ScalarSort`, `Tarjan`. Invariants of the array algorithms; measure = number
  of inversions; depth-first search invariant.
* C22, C23, C27, C28: `Stride`, `LoopOps`. Induction over the loops.
* C24: `Lemmas/Gen*`, `Props/Generate`. The meaning of a tree is its set of instances (`hasLoops`) and
  its order (`seqLoops`); every step of the generator preserves both; traces then follow. With `-strides` the merging of loops
  is made partial (`generateS`): it is undefined where `cloog_loop_combine` would drop a different stride.
* C25: `Lemmas/Clast*`, `Props/ClastExec`. Simulation between the tree and the clast.
* C26: `Props/Simplify`. Traces, by induction over the tree.
* C29, C30: `Options`. C31, C48: `Matrix`. C32, C33: `Names`. C34: `Filter`.
* C35, C36, C52, C55: `PPrint`, `PText`, `ProgBrackets`, with a longest-match lexer and a parser for C's grammar.
* C53: `Parallel`. `sequential` (lines with directives vanish, one process) is the specification; the text is shown to
  be the text of a program with explicit assignments to the bound variables, and the two programs to run in step.
* C37, C38: `Program`, `LoopBlock` (C50). C39: `RefCount`, invariant over all histories.
* C40, C41, C54: `EqTable`, linear algebra over rows. C51: `Equations`. C59: `EqType`, the scan of the columns
  compared with the meaning of the equality.
* C42: `UnionDomain`, C43: `ImportSet`; state machines over all call sequences.
* C44: `Lemmas/GenStop`, `Stop`. The same stages as C24, with the depth at which trees are cut as part of the
  invariant (`Cutted`).
* C45: `DivExpr`. The value of the expression as a function of the numerators; Bezout for the converse.
* C46: `OtlOff`, on the lemmas for C25 (`Lemmas/ClastEqn`).
* C47: `ClastNames`. Induction over the loop tree: the variables read and set by everything that is built.
* C56, C57: `ProgText`. A small preprocessor (lines, `#define`, substitution outside of string literals) and a
  reader of declarations are specified there; every line of the text in front of the code is taken through them.
* C65: `CMacro` (a preprocessor on tokens, C expressions with `?:`), `Macro`. The macro bodies are read from the
  printed text; the grammar is shown to be unambiguous by a recursive descent that accepts all derivations.
* C66: `Lemmas/StrideBound`, `StrideBound`. The new row is evaluated at the values of the columns' expressions.
* C49: `OneCopy`. Each step of the recursion keeps the list of statement blocks up to order and omissions, and keeps
  domains single polyhedra; then by induction over the tree for the construction of code.
* C69: `Separated`. Invariant of the recursion: each statement inside a loop has a point over each point of the loop;
  C17 for the separation, exact projections for `cloog_loop_specialize`.
* C70: `Terminates`. `Ends f`: from some bound on the rounds on there is one result. Induction on the number of parts of
  a union, on the distance of level and scalar from the last one, and on the height of a tree. The assumptions
  (`TermLaws`) are separate from those of C24: in particular that subtracting sets without overlap does not split a
  polyhedron, without which `cloog_loop_add_disjoint` need not end, and that `cloog_domain_sort` returns (C19). The example
  instance meets the assumptions on overlaps trivially, since its differences never split. With unrolling
  (`Props/TermUnroll`) the laws of `GenLaws` are needed too, for all operations but the sort: an order that is right for
  every list of domains and exists for every list is not to be had, so both laws about it cannot be assumed at once.
* C71: `Fused`. C21 for the components; the steps on a list of loops with one domain give a list with one domain. Assumed
  besides `GenLaws`: `isl_set_plain_is_equal` recognises a set as equal to itself, and the hull of a bounded set is bounded.
* C73: `MatrixConv`. The columns read by each function, as sublists of the row.
* C74: `OslImport`. The calls of the union domain interface made by the import, as a list; then C42. The
  OpenScop library (parsing, normalising, printing relations) is outside.
* C75: `Fortran`. A left to right grammar of Fortran expressions (`FText`, deterministic), reals with `p`
  binary digits and any rounding to nearest (`FReal`). Texts are sorted by what they can be used as: primary,
  product, minus sign and product, expression; induction over the expression. What generated code contains is found with the proof of C35 (`PClast`), which is generic in the
  kind of expressions (`Kit`).
* C76: `FNames`. Exact extent, from the letters of the names.
* C77: `ProgDump`. The lines of the file, section by section, then C60.
* C78: `FProg`. Fortran statements as lines of tokens (`Model/FProg`, deterministic), a simulation of the executions
  of the clast in which the bounds of a loop are evaluated once (`steadys`: a loop does not change what its bound
  reads; derived from the tree, C80; the absence of blocks and strides is checked on the clast). Free source
  form; the length of lines, declarations and names of intrinsics are not modelled. A statement is taken as a macro call.
* C80: `Steady`. Columns that can be computed from earlier iterators have expressions with these variables only; what is put
  around the code of a level assigns its iterator and nothing else. Used by C78 and C53.
* C82: `Order`. `Sorts` is the contract of `qsort`; a sort is determined up to elements that compare as equal, and those are
  equal (C08/C09 for sums, `Tame` for the conditions of a guard). Induction over two trees that differ in the order of rows.
* C83: `LoopCount`. Beside each function `f` of `Model/Loop` there is `fC`, the calls of `cloog_loop_malloc` and of the
  functions that free loops, and the loops that become unreachable. The balance (`C83_balance`) holds for all options and any
  domain operations, the sort being a permutation: size of the result = size of the argument + allocated - freed - lost.
  `C83_freed_partial` assumes besides that a restriction does not change the number of dimensions (isl fails otherwise).
* C84: `BlockCount`. The same for the pointers of loops to blocks: beside each function the calls of `cloog_block_copy` and
  `cloog_block_free`, the pointers dropped without `cloog_block_free` and the pointers made without `cloog_block_copy`
  (`cloog_loop_decompose_inner`). For each block, `C84_safe` says that the counter is not smaller than the number of pointers
  after generation, for all inputs; `C84_simplify` that simplification keeps them in step; `C84_generate_partial` and
  `C84_freed_partial` that they are equal and that the counter of references by loops ends at zero, under the assumptions of
  C83. The pointers of the list of blocks of the program are not part of this; they are in C39 (`RefCount`).
  Missing: domains, blocks and statements are not counted; statements of different depths under a final scalar dimension.
* C85: `DefPair`. The two searches for defining constraints of the matrix backend, row by row. `C85_pair_exact` is an
  equivalence with the shape of the rows (structure `Pair`), `C85_pair_meaning` the exact set of values of the variable,
  `C85_equality_first` and `C85_equality_defines` the equality. The allocation of the returned constraints is not modelled.
* C86: `ImportMap`. The calls made on the union domain for a union map, run in the model of C42. `C86_import` is the union
  domain and the names of the program, `C86_distinct_iff` says exactly when the names differ, `C86_dates_partial` adds the
  dates (from C42, without blocking). The order in which isl visits the maps is that of the list.
* C87: `GivenNames`. No new model: the name lists of C42, the program of C25. One exact characterisation for each kind of
  given names (`C87_parameters_given`, `C87_iterators_given`, `C87_scattering_given`) and for two given kinds
  (`C87_two_given`), and without a scattering (`C87_no_scattering`). `C87_wrong_program` is the program a clash gives.
* C88: `ClastMem`. Expressions with the addresses of their nodes, and the list of addresses in use; `malloc` is any function
  that returns an address not in use. `C88_free` says exactly when an expression can be freed, `C88_copy` what a copy is made
  of, `C88_for_bound` and `C88_equation_loop` that the bounds of the two kinds of loops can be freed. The expressions made by
  the rest of the code generation are not part of it.
* C89: `ClastFree`. The same for statements. `C89_free` is exact; `C89_build_free` builds an arbitrary clast with the
  constructors and frees it. That `cloog_clast_create` uses each node once is not proved: its model (C25) has no addresses.
  The root node, domains, statements and names (reference counted, see C39) are left out.
* C90: `Messages`. The warnings as lists of messages, without their texts. `C90_similar`, `C90_scatter` and `C90_last` say exactly
  when each is printed; `C90_unknown` which unknown options are reported, for all command lines without errors and without
  `-openscop`. The comparison of isl and `isl_map_is_single_valued` are parameters.
* C81: `Callable`. Structural inductions over the clast and its executions; the number of rounds by C80, extended to first
  values (`Steady` with the flag `lo`).
* C79: `Arrays`. The code generation again, with arrays of a capacity that is fixed when they are allocated
  (`Model/Arrays`); a write past the end or the use of an element that is not set fails. Equal to the model with lists
  (`ClastGen`), which C25 is about. Eliminating an iterator is followed on the set of columns with a coefficient.
* C72: `LastLevel`. The bodies of the loops before the recursion are statements (`Flat`); nesting gives chains; the two runs
  with and without `-l` go side by side (`Same`). Nothing is assumed about the polyhedral operations.
* C67: `Annotate`, `OslText`. Fold over the annotations, with C34 for the loops each one reaches.
* C68: `Annotate`. Induction over the file; lines and columns of the C code against places of the text.
* C62-C64: `IslSet`. Sets are lists of constraints with integer divisions; `isl_aff`, `isl_constraint` and
  `isl_set_max_val` are modelled by their documented values. C62 discharges the law of `GenLaws` that C24 uses for
  unrolling, C63 the laws on lower bounds for strides where they are true.
* C60, C61: `Input`, `InputEx`. Files as lists of lines; induction over lines, words and statements.
* C58: `Pipeline` composes C24, C26, C25 and C35. Generated trees have a known shape (`Lemmas/GenShape`),
  which simplification keeps; a trace of such a tree is a run of the tree of constraint sets.

## Disagreements between properties and code

Each of these is proved with a concrete witness in Lean (theorem in parentheses).

* C04: in fixed-width builds the sign of a comparison is lost when the difference does not fit in an
  `int` (`C04_fixed_width_false`, `C04_int_overflow_false`); consequences in C08 and C20
  (`C08_fixed_width_false`, `C20_fixed_width`).
* C09: the comparator given to `qsort` is not transitive on reductions with one element
  (`C09_not_transitive`).
* C10: with the isl backend, equal bounds never collapse to an assignment: an assertion stops the
  program (`C10_equal_bounds_abort`).
* C13: the condition for a pair of inequalities uses `%` on a possibly negative operand
  (`C13_negative_operand`).
* C14: for existentially quantified columns the "never" answer is ignored (`C14_extra_guard_ignored`).
* C16: the stride factor is not an inverse when the coefficient shares a factor with the stride
  (`C16_factor_false`).
* C19: `cloog_domain_sort` does not terminate for a cyclic comparison, and orders wrongly where integer
  sets cross (`C19_diverges`, `C19_cycle_order`).
* C24: a group of statements with a scalar last dimension drops statements deeper than the first
  (`C24_scalar_drops`).
* C26: simplifying a scanning loop over a union can change the order (`C26_union_reordered`).
* C30: any text is accepted as a number (`C30_accepts_anything`, `C30_garbage`).
* C31: short rows repeat the last number or read past the line (`C31_short_row_accepted`,
  `C31_short_row_witness`, `C31_short_row_undefined`), long lines are cut (`C31_long_line`). C48 has
  the corresponding limits (`C48_no_columns`, `C48_long_row`).
* C32: default names clash or are no identifiers for more than 28 parameters (`C32_clash`).
* C34: the traversal stops at an assignment or a block (`C34_after_assignment`, `C34_after_block`,
  `C34_wrong_loop`); exact filters with repeated statements find nothing (`C34_exact_duplicates`).
* C35: expressions that code generation does not build are misprinted (`C35_wrong_mod`,
  `C35_wrong_decr`, `C35_wrong_zero`).
* C36: blocks have braces in Fortran (`C36_fortran_block`).
* C40: rows before the first equality keep the level (`C40_first_row_kept`). C41: the recorded type of
  an equality is that of the row before simplification (`C41_type_stale`).
* C42: with scatterings for only some domains, a null pointer is used by default, and with `-noblocks`
  scatterings are applied to the wrong domains (`C42_some_scatterings_crash`, `C42_misaligned`).
* C43: renamed dimensions can clash (`C43_clash`, `C43_clash_default`).
* C44: below the last level to optimise (`-l`) the depth to stop is ignored (`C44_ignored_below_last`).
* C46: with `-otl 0`, an equality without an integer solution is scanned once
  (`C46_otl0_wrong_instance`).
* C50: blocking after scattering changes the order of dates in two situations (`C50_two_phases`,
  `C50_crossing`).
* C52: Fortran strides are glued to the bound (`C52_stride_glued`).
* C53: parallel loops in parallel loops overwrite `ubp` (`C53_nested`), and in Fortran the bounds of parallel loops are
  printed as `lbp` and `ubp` but never assigned (`C53_fortran`).
* C49: a statement whose domain is a union of polyhedra is copied with `-f -1` too (`C49_union`); unions with an
  unbounded hull are split (C64).
* C69: a level at which all statements have the same value is merged, not separated (`C69_constant`).
* C67: annotations are lost for loops behind an assignment or a block (`C67_lost`), mark loops around statements they
  do not name (`C67_wrong_loop`), MPI directives are dropped without a warning (`C67_mpi_dropped`), a user's directive
  without OpenMP changes nothing in the text (`C67_user_ignored`), and iterators are not declared if the file with the
  SCoP cannot be opened (`C67_iterators_partial`).
* C55: OpenScop bodies with more than ten iterators (`C55_ten`).
* C45: only the numerators of the reduced fractions are read when an integer division is printed, so
  `floor((2i+j)/4)` becomes `floord(i+j,4)` (`C45_wrong`); exactly the definitions with coefficients coprime to the
  denominator are right (`C45_exact`). Loops with a parametric stride skip iterations because of this (`C66_skips`).
* C47: an equality with two existentials makes the guard take a name from behind the end of the table of iterators
  (`C47_second_existential`).
* C56: with `-compilable`, named statements are called by their names, but the macros have the names `S1`, `S2`, …
  (`C56_named`); with both options an empty program is `S0`, which is not defined (`C56_empty`); an iterator called
  `hash`, `total` or `printf` is substituted in the macros (`C56_hash`).
* C57: an iterator called `total` is declared twice (`C57_total`).
* C60: statement names are not dumped (`C60_statement_names_lost`); scatterings of some statements only are
  dropped or crash (`C60_scattering_dropped`, `C60_scattering_null`); names with blanks, unset names and long
  names (`C60_name_blank`, `C60_name_null`, `C60_long_name`); truncated files are read for ever
  (`C60_truncated_input`); the language letter must be in the first column (`C60_language_column`).
* C61: a wrong number of parameters in a domain is not noticed (`C61_wrong_parameters`).
* C62: for a union one bound is used for all parts, and the copies lose points (`C62_union`); code generation
  only unrolls what is not a union.
* C63: if the coefficient of the iterator has a common factor with the stride, the factor of C16 is wrong, and
  points of the domain are lost (`C63_lost`: `j + 2i + 4e = 0`). So the law `StrideLaws.lower` that C24 and C58
  assume with `-strides 1` does not hold for such domains.
* C64: with bounds that depend on outer iterators nothing is split and the hull has no bound
  (`C64_unbounded`), although the comment of `cloog_domain_bound_splitter` says so.
* C73: `cloog_scattering_from_cloog_matrix` reads the columns of the dates as coefficients of the iterators, and the
  parameters and the constant from wrong columns, because `isl_dim_set` only counts the output dimensions of the map.
  No scattering read in this way restricts the dates (`C73_scattering_ignored`, `C73_scattering_wrong`).
* C74: a scop that names some of its parameters leaves the others with a null name, not a default one
  (`C74_unnamed_parameter`). A scop without a domain for a statement, without a language, or one that
  cannot be read leads to the use of a null pointer (`C74_refused`, `readOpenScop`).
* C75: floor and ceiling divisions in Fortran go through default reals. Beyond 24 binary digits the result
  can be wrong: `FLOOR(REAL(N)/REAL(2))` for `N = 67108863` is 33554432 instead of 33554431, under every
  rounding to nearest (`C75_rounded`).
* C76: with a parameter and five iterators, the parameter `M` and the iterator `m` are the same in Fortran
  (`C76_clash`; exactly then: `C76_distinct_iff`).
* C77: `cloog_program_dump_cloog` writes one statement for each loop, so statements that share a block are lost, which
  its warning does not say (`C77_blocks_lost`). The file of a program without loops is refused when read
  (`C77_no_statements`). There is no end of line behind `# Scattering functions`, so the number of polyhedra of the first
  scattering disappears in this comment (`C77_union_scattering`). A context that is a union stops at an assertion.
* C78: the stride of a loop is printed right behind the last value in Fortran, without a comma; with the values -1 and -1
  and stride 2 the text is `DO i=-1, -12` and no call is made (`C78_stride`). A block is printed with braces
  (`C78_block`). Calls have no `CALL`.
* C79: the array of a modulo test is allocated before the iterators with strides are eliminated, with one element more
  than there are coefficients ("overestimate" in the code). The constraint of a stride can bring in several parameters
  and earlier iterators, so that elements are written past the end of the array (`C79_overflow`, `C79_program_overflow`).
* C80: the last value of a loop can use an existential that is defined by the iterator of the loop, and then changes while
  the loop runs: `for (i=0;i<=2*floord(i,3)+5;i++)` ends at 14 though 15 is in the domain (`C80_existential`; whether isl
  can leave such constraints in a domain is not modelled).
* C82: the conditions `i == ii`, `i >= 5`, `i <= min(M,N)` of one guard compare in a circle (`qsort_eq_cmp` through
  `clast_reduction_cmp`, which ignores the kind of one-element reductions), so the behaviour of `qsort` is not defined and the
  order of the constraints is seen in the code (`C82_cycle`).
* C83: the loops dropped by `cloog_loop_generate_scalar` (see C24) are not freed either, so `main` reports an internal problem
  that "should have no consequence on the correctness of the output" although a statement is missing in it (`C83_leak`).
* C84: the block of such a loop, and the statements in it, are not freed either: no loop points to it, but its counter stays
  at one (`C84_leak`). Besides, `cloog_loop_combine`, `cloog_loop_merge`, `cloog_loop_constant` and `cloog_loop_separate` would
  drop the pointers of loops that have blocks, and `cloog_loop_decompose_inner` would duplicate them without counting; they are
  only called for loops without blocks (this is part of the proof of `C84_safe`).
* C85: the comment of `cloog_constraint_set_defining_equality` says that all the equalities with a variable are equivalent;
  they need not be (`C85_equalities_differ`); the first one is returned.
* C86: default names are not compared with the names of the parameters: a union map with a parameter `i` (or `c1`) gives a
  program in which an iterator (or a scattering dimension) has the same name as the parameter (`C86_clash`).
* C87: the names a user gives are not compared with the default ones (`C87_clash`). A parameter called `i` in a program
  with default iterator names gives `for (i=0;i<=i;i++)`, which does not terminate (`C87_wrong_program`).
* C90: `-q`, documented as suppressing informational messages, also hides warnings, so that `-l` is changed without a message
  (`C90_changed_silently`), and it only counts for options after it (`C90_quiet_order`). Equal scatterings that are written
  differently are not reported (`C90_not_warned`).
* C81: a loop without a last value runs 1001 times, so the instances further on are not executed (`C81_lost`); in Fortran
  its last value can be printed as `1000+-5`, which is not an expression of Fortran (`C81_fortran`).

Smaller observations, not part of a property: `cloog_loop_combine` keeps the stride of the first loop;
`cloog_loop_scalar_sort` must not be called with an empty list;
`cloog_domain_cut_first` stops at an assertion for an empty union; the extreme `int` values of options
overflow when the scalar dimensions are added; `cloog_domain_can_unroll` stops the program for an empty set (its
maximum is not a number); `loop_recurse` dereferences the null pointer if unrolling leaves no loop (C70: it always leaves one, if isl decides emptiness exactly); a region of type
`OSL_REGION_TEXT_PRAGMA` without text prints `#pragma ` without end of line.

## Axioms

Output of `#print axioms` for every theorem of `MANIFEST.json`:

* `[propext, Classical.choice, Quot.sound]` (293 theorems): `Arith.C01_macros_exact`, `Arith.C01_minmax_exact`, `Arith.C01_machine_never_wrong`, `Arith.C01_machine_defined`, `Arith.C02_div_macros`, `Arith.C02_machine_defined`, `Arith.C03_seq_gcd`, `Arith.C03_normalize`, `Arith.C03_same_solutions`, `Arith.C03_seq_is_neg`, `Arith.C04_cmp_exact_partial`, `Bounds.C05_null_iff`, `Bounds.C05_lower`, `Bounds.C05_upper`, `Bounds.C05_equality`, `Bounds.C05_equality_converse`, `Bounds.C06_lower_absent_iff`, `Bounds.C06_upper_absent_iff`, `Bounds.C06_scans_exactly`, `Bounds.C06_scans_stride`, `Bounds.C06_stride_needs_congruence`, `Arith.C07_least`, `Arith.C07_idempotent`, `Arith.C07_visits`, `Expr.C08_equal_sound`, `Expr.C08_equal_refl_copy`, `Expr.C08_fixed_width_false`, `Expr.C09_not_transitive`, `Expr.C09_preorder_partial`, `Expr.C10_collapsed_loop_once`, `Equations.C10_equal_bounds_abort`, `Guards.C11_guard_exact`, `Guards.C12_modulo_equality`, `Guards.C13_modulo_pair_partial`, `Guards.C13_negative_operand`, `Guards.C14_equation_unsat_partial`, `Guards.C14_extra_guard_ignored`, `Guards.C15_eliminate_sound`, `Guards.C15_eliminate_all_sound`, `Arith.C16_euclid`, `Arith.C16_stride_sound`, `Arith.C16_factor_partial`, `Separate.C17_separate`, `Separate.C18_disjoint`, `DomainSort.C19_sorts_partial`, `DomainSort.C19_diverges`, `ScalarSort.C20_scalar_sort`, `Tarjan.C21_components`, `Stride.C22_stride`, `Stride.C22_executes`, `LoopOps.C23_unroll`, `Generate.C24_generate_partial`, `Generate.C24_last_partial`, `Generate.C24_strides_partial`, `Generate.trace_exists`, `ClastExec.C25_program_executes_tree_partial`, `Simplify.C26_simplify`, `Simplify.C26_union_reordered`, `LoopOps.C27_merge`, `LoopOps.C28_levels`, `Options.C29_option_fixing`, `Options.C30_numbers_partial`, `Options.C30_missing_argument`, `Options.C30_accepts_anything`, `Options.C30_garbage`, `Options.C30_input_files`, `Matrix.C31_read_partial`, `Matrix.C31_short_row_accepted`, `Matrix.C31_short_row_witness`, `Matrix.C31_short_row_undefined`, `Names.C32_distinct_iff`, `Names.C32_clash`, `Names.C32_default_names_partial`, `Names.C32_identifiers_iff`, `Names.C33_scalarize`, `Names.C33_scalarized_level`, `Filter.C34_stmts_sound`, `Filter.C34_filter_partial`, `PPrint.C35_expression`, `PPrint.C35_statements`, `PPrint.C35_program`, `PPrint.C35_tree_text_partial`, `PPrint.C35_wrong_mod`, `PPrint.C35_wrong_decr`, `PPrint.C35_wrong_zero`, `PText.C36_balanced`, `PText.C36_fortran`, `PText.C36_same_text`, `PText.C36_fortran_block`, `PPrint.C36_balanced_partial`, `PText.C36_stops`, `ProgBrackets.C36_program`, `OslText.C36_scop`, `Program.C37_extract_scalars`, `Program.C38_program_block`, `LoopBlock.C38_loop_block`, `RefCount.C39_release_once`, `RefCount.C39_release_when_last`, `RefCount.C39_statements`, `RefCount.C39_loop_copy`, `RefCount.C39_loop_free`, `RefCount.C39_loop_roundtrip`, `EqTable.C40_same_solutions`, `EqTable.C40_eliminates`, `EqTable.C40_only_one`, `EqTable.C41_table`, `EqTable.C41_solved`, `EqTable.C41_simplify`, `EqTable.C41_set`, `EqTable.C41_once`, `EqTable.C41_type_stale`, `UnionDomain.C42_calls`, `UnionDomain.C42_names`, `UnionDomain.C42_statements`, `UnionDomain.C42_dates_partial`, `ImportSet.C43_distinct_partial`, `ImportSet.C43_import`, `Stop.C44_stop_partial`, `Stop.C44_first_iterators_partial`, `Stop.kept_plain`, `DivExpr.C45_exact`, `DivExpr.C45_columns_partial`, `OtlOff.C46_loop_right_iff_partial`, `OtlOff.C46_otl0_wrong_instance`, `Verif.ClastGen.insertPair_spec`, `Verif.ClastGen.insertEquation_spec`, `ClastNames.C47_names_partial`, `ClastNames.C47_second_existential`, `Matrix.C48_round_trip`, `Matrix.C48_gmp`, `Matrix.C48_long_long`, `OneCopy.C49_no_duplication_partial`, `OneCopy.C49_calls_partial`, `LoopBlock.C50_two_phases`, `LoopBlock.C50_crossing`, `LoopBlock.C50_loop_block_partial`, `Equations.C51_assignment`, `Equations.eqType_exaffine`, `PText.C52_stride_glued`, `PText.C52_c_partial`, `Parallel.C53_parallel_partial`, `Steady.C80_parallel_partial`, `Parallel.C53_nested`, `Parallel.C53_fortran`, `EqTable.C54_reduce`, `EqTable.C54_same_guard`, `PText.C55_bodies_partial`, `PText.C55_ten`, `ProgText.C56_callable`, `ProgText.C56_compilable`, `ProgText.C56_callable_defs`, `ProgText.C56_compilable_defs`, `ProgText.C56_callable_call`, `ProgText.C56_compilable_call`, `ProgText.C56_named`, `ProgText.C56_empty`, `ProgText.C56_hash`, `ProgText.C57_callable`, `ProgText.C57_compilable`, `ProgText.C57_declared_partial`, `ProgText.C57_once`, `ProgText.C57_total`, `Pipeline.C58_simplified_partial`, `Pipeline.C58_text_partial`, `Pipeline.trace_unique`, `Pipeline.simplify_outline`, `EqType.C59_spread`, `EqType.C59_isl`, `EqType.C59_matrix`, `Input.C60_read`, `Input.C60_dump_read_partial`, `InputEx.C60_statement_names_lost`, `InputEx.C60_scattering_dropped`, `InputEx.C60_scattering_null`, `InputEx.C60_name_blank`, `InputEx.C60_name_null`, `InputEx.C60_long_name`, `InputEx.C60_truncated`, `InputEx.C60_truncated_input`, `InputEx.C60_language_column`, `InputEx.C60_wrong_number`, `InputEx.C61_wrong_parameters`, `IslSet.C62_unroll`, `IslSet.C62_union`, `IslSet.exact_laws`, `IslSet.C63_keeps_partial`, `IslSet.C63_start`, `IslSet.C63_same_bound`, `IslSet.C63_again`, `IslSet.C63_lost`, `IslSet.C64_partition`, `IslSet.C64_bounded_partial`, `IslSet.C64_unbounded`, `Macro.C65_macros`, `Macro.C65_callable`, `Macro.C65_compilable`, `StrideBound.C66_first_partial`, `StrideBound.C66_skips`, `Annotate.C67_annotations_partial`, `Annotate.C67_wrong_loop`, `Annotate.C67_bounds_declared`, `Annotate.C67_user_ignored`, `OslText.C67_declarations`, `Annotate.C68_surrounding_text`, `Separated.C69_no_idle_iterations_partial`, `Separated.C69_constant`, `Terminates.C70_terminates_partial`, `Terminates.C70_unroll_partial`, `Fused.C71_one_nest`, `LastLevel.C72_alone`, `LastLevel.C72_same_above`, `MatrixConv.C73_domain`, `MatrixConv.C73_scattering_wrong`, `MatrixConv.C73_scattering_partial`, `MatrixConv.C73_bounds`, `MatrixConv.C73_cube`, `OslImport.C74_import`, `OslImport.C74_refused`, `Fortran.C75_program_partial`, `Fortran.C75_expression_partial`, `Fortran.C75_rounded`, `FNames.C76_distinct_iff`, `FNames.C76_fortran_names_partial`, `FNames.C76_clash`, `ProgDump.C77_dump_read_partial`, `ProgDump.C77_blocks_lost`, `ProgDump.C77_no_statements`, `ProgDump.C77_union_scattering`, `FProg.C78_statements_partial`, `FProg.C78_program_partial`, `FProg.C78_tree_partial`, `FProg.C78_stride`, `FProg.C78_block`, `Arrays.C79_bound`, `Arrays.C79_minmax`, `Arrays.C79_loop_bound`, `Arrays.C79_conditions`, `Arrays.C79_modulo_partial`, `Arrays.C79_program_partial`, `Arrays.C79_overflow`, `Arrays.C79_program_overflow`, `Steady.C80_fixed_partial`, `Steady.C80_count_partial`, `Steady.C80_tree_partial`, `Steady.C80_existential`, `Callable.C81_closed`, `Callable.C81_runs`, `Callable.C81_program`, `Callable.C81_tree_partial`, `Callable.C81_rounds_partial`, `Callable.C81_thousand`, `Callable.C81_twothousand`, `Callable.C81_lost`, `Callable.C81_fortran`, `Order.C82_bounds`, `Order.C82_tree_partial`, `Order.C82_cycle`, `Order.C82_first`, `LoopCount.C83_balance`, `LoopCount.C83_freed_partial`, `BlockCount.C84_safe`, `BlockCount.C84_simplify`, `BlockCount.C84_balance`, `BlockCount.C84_generate_partial`, `BlockCount.C84_freed_partial`, `DefPair.C85_pair_exact`, `DefPair.C85_pair_meaning`, `DefPair.C85_equality_defines`, `DefPair.C85_equalities_differ`, `DefPair.C85_contains`, `ImportMap.C86_import`, `ImportMap.C86_distinct_iff`, `ImportMap.C86_clash`, `ImportMap.C86_dates_partial`, `ImportMap.C86_empty`, `GivenNames.C87_parameters_given`, `GivenNames.C87_iterators_given`, `GivenNames.C87_scattering_given`, `GivenNames.C87_two_given`, `GivenNames.C87_no_scattering`, `GivenNames.C87_wrong_program`, `ClastMem.C88_free`, `ClastMem.C88_no_sharing`, `ClastMem.C88_copy_survives`, `ClastMem.C88_for_bound`, `ClastMem.C88_equation_loop`, `ClastFree.C89_free`, `ClastFree.C89_build_free`, `Messages.C90_similar`, `Messages.C90_not_warned`, `Messages.C90_scatter`, `Messages.C90_quiet_order`, `Messages.C90_unknown`.
* `[propext, Quot.sound]` (40 theorems): `Arith.C02_assert`, `Arith.C02_machine_never_wrong`, `Arith.C03_gcd`, `Arith.C04_fixed_width_false`, `Bounds.C05_divisors_positive`, `Expr.C10_dropped_loop_empty`, `Arith.C16_factor_false`, `Separate.finDom_laws`, `DomainSort.C19_permutation_partial`, `Generate.generateS_generate`, `Generate.C24_scalar_drops`, `LoopOps.isMax_exists`, `Names.C33_name_at_level`, `Filter.C34_no_duplicates`, `Filter.C34_after_assignment`, `Filter.C34_after_block`, `Filter.C34_wrong_loop`, `Filter.C34_exact_duplicates`, `Program.C37_no_error`, `EqTable.C40_first_row_kept`, `UnionDomain.C42_some_scatterings_crash`, `Stop.C44_ignored_below_last`, `OneCopy.C49_union`, `InputEx.C61_domain`, `InputEx.C61_context`, `InputEx.C61_scattering`, `IslSet.C62_best`, `IslSet.C63_inside`, `Annotate.C67_lost`, `Annotate.C67_mpi_dropped`, `Annotate.C67_iterators_partial`, `Terminates.C70_follows`, `MatrixConv.C73_scattering_ignored`, `OslImport.C74_unnamed_parameter`, `Arrays.C79_modulo_iff`, `LoopCount.C83_leak`, `BlockCount.C84_leak`, `DefPair.C85_equality_first`, `ClastMem.C88_copy`, `Messages.C90_last`.
* `[propext]` (13 theorems): `Arith.C01_machine_overflow_witness`, `Arith.C04_int_overflow_false`, `Bounds.bound_sumOnly`, `DomainSort.C19_cycle_order`, `ScalarSort.C20_fixed_width`, `UnionDomain.C42_misaligned`, `ImportSet.C43_clash`, `ImportSet.C43_clash_default`, `DivExpr.C45_wrong`, `OslImport.C74_language`, `ImportMap.C86_ranges`, `Messages.C90_quiet`, `Messages.C90_silent`.
* `[]` (5 theorems): `Matrix.C31_long_line`, `Matrix.C48_no_columns`, `Matrix.C48_long_row`, `GivenNames.C87_clash`, `Messages.C90_changed_silently`.
