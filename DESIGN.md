# A Lean 4 model of the VossII core

The subject is TeamVoss/VossII at the commit in `/repo`.  Paths below are relative to `/repo`.
The model is under `lean/Verif/`.  Each part of the code has

* `Verif/<Part>/Model.lean`   – executable definitions transcribing the code; each cites file and lines,
* `Verif/<Part>/Spec.lean`    – the small independent specification used in the theorem statements (where one is needed),
* `Verif/<Part>/Lemmas*.lean` – helper lemmas,
* `Verif/<Part>/Props.lean`   – the property theorems, non-vacuity examples and refutations.

## Trusted base

* Lean 4.33.0's kernel.  No `sorry`, no added axioms, no `native_decide`/`bv_decide`.
  The theorems rest on at most `propext`, `Classical.choice`, `Quot.sound` (`#print axioms` checked).
* The transcription from C to Lean by reading.  The code was not run.
* General modelling conventions:
  * C `int` counters, lengths and array indices are `Nat`/`Int` unless a property is about their overflow;
    64-bit digits of big integers are `BitVec 64`.
  * Memory blocks are lists/arrays; a pointer into a hash-consed table is an index.
  * Undefined behaviour reached by the code (trap, out-of-bounds read, missing termination) is a distinct
    outcome (`none`, or a constructor of its own), never a value.
  * Hash functions and random seeds are parameters, so theorems hold for all of them.
  * Allocation failure, signals, the Tcl GUI, printing and logging are not modelled.

## Plan per property

| id | what is modelled | how it is proved |
|----|------------------|------------------|
| C01 | `arb_prec.c`: `trim`, `arbi__add` (one-digit fast path and carry loop), `arbi__neg`, `arbi__sub`, `abs` on `List (BitVec 64)`; value = two's complement value in `Int` | induction over digit lists with a carry invariant; result trimmed |
| C02 | `arbi__mlt` fast path (overflow test by division, with trapping division) and column loop | column-sum invariant; concrete trap witness; `_partial` excludes that pair |
| C03 | `divmod`, `arbi__div`, `arbi__mod` with the quotient-guess abstracted to "any guess" | loop invariant; uniqueness of floor division |
| C04 | `Arbi_cmp` on trimmed digit lists | value bounds by length, then lexicographic digits |
| C05 | `arbi__bvop` with sign extension | bit-index lemma for two's complement lists |
| C06 | `Arbi_ToString`, `Arbi_FromString` | positional value induction; two concrete refutations |
| C07 | `arbi__gcd` Euclid loop over C03's mod | well-founded induction, divisor sets |
| C08–C13 | `bv.c` on lists of Boolean functions, MSB first | per-assignment two's complement value, induction on lists |
| C14–C16 | `new_bdd.c` unique table, complement edges, result cache, `bdd_step`, `quantify` as a state machine | representation invariant (ordered, reduced, lson positive, unique, cache sound); semantic canonicity by induction on the order |
| C17 | `Rel_prod` with its call of `quantify` using the flag as operation code | concrete refutations by evaluation; partial theorem for the branch free of the defect |
| C18 | `do_substitute` with sorted list and cache | induction on the order |
| C19, C20 | `B_Depends`, `truth_cover_rec` | support lemma from canonicity; counting induction |
| C21 | mark, sweep, `clean_cache` | reachable closure; invariant preserved |
| C22 | `swap_down` | semantic preservation + invariant |
| C23 | `b_save`/`Load_BDDs` as record lists | simulation between line index and formula |
| C24–C28 | `bexpr.c` node table, simplifier, candidate merging with the SAT solver as a parameter whose UNSAT answers are assumed right; Tseitin clauses; `be_subst`; save/load; `be2bdd` memo | invariant over the node table; refutation for the memo |
| C50 | evaluation of nested `bITE` with its global condition | induction on flat expressions; concrete refutation |
| C51 | `BE_NEQ` | case analysis; concrete refutation |
| C39 | `compile.c` on named lambda terms; call-by-name semantics in an arbitrary combinatory algebra | substitution lemma for terms whose binders are apart; invariants of renaming and alias removal; capture witnesses in the graph model |
| C52 | free variable tables, `abstract_rec`, `compile` | induction on terms: abstraction law; directors feed the needed arguments |
| C53 | `trarg`, clause lists, argument lambdas, constructors | induction on patterns with a match relation; freshness by counting; witnesses for the made-up names |
| C54 | heap, spine, rewrite rules, `force`, `Gen_map2` merging, top level | invariant: there is a valuation of all nodes, for every assignment, that every rule keeps; ghost flag for the three shortcuts; concrete runs for the violations |
| C55 | FORCED marks | invariant: marked cells have marked sons, kept unless the evaluation fails |
| C29 | `lib/hash.c` chains and rehash | refinement to association list / map |
| C30 | `lib/generation_hash.c` on top of C29's specification | refutations; partial theorem under "at most one change per key per generation" |
| C31 | `lib/rec.c` | invariant over operation lists |
| C32 | `lib/buf.c`, `include/buf.h` | refinement to lists; refutation of the bound |
| C33 | `lib/strmgr.c:node_name_cmp` on lists of characters | key-sequence embedding into a lexicographic order |
| C34, C35 | `fsm.c` op_* on dual-rail words over any operations | exactness on Booleans by induction on width; one relation lemma for all primitives lifts it to handles, unknown values and size limits |
| C36–C38 | `fsm.c` event creation, `process_event`, `update_node`, `do_combinational`, `do_phase`, `gSTE` | concrete refutations by evaluation; soundness theorem under guards excluding the defects |
| C40 | `cache.c`: comparison and hashing of values, the growing table of calls, nested calls, `clean_clets`, garbage collection | invariant "every entry is what the function returns" over all sessions; witnesses by evaluation |
| C56 | `table.c` on the hash tables of C29, with the comparison and hashing of C40; nodes that hold tables | refinement to finite maps; witnesses by evaluation |
| C57 | `typecheck.c`: store of type variables with undo log, `unify`, instances, `build_node_type_struct`, `TypeCheck` | invariant "the store has a most general solution"; sound and complete by induction on the expression; termination by a decreasing measure |
| C58 | `nbr_succ_overload_res`, second pass and implicit arguments of `TypeCheck`, `find_common_type_rec`, `Find_Overload_Choice` | the search counts the solutions of the store left by C57 (induction on names and alternatives); witnesses by evaluation |
| C59 | type declarations: `Get_Type`, concrete types and abbreviations, `Fix_Types`, `Check_no_undef_types`, types of constructors and destructors | invariant of the table of concrete types by induction on sessions; inversion of typing for taking apart; witnesses by evaluation |
| C60 | `Forward_Declare_Ok`, `Type_eq`, numbering of type variables | numbering from left to right is a canonical form |
| C61 | `print_type_rec`, `Get_tmp_type_string`, signatures of declared types | a parser reads the printed text back (composition of parsing lemmas by induction on the type); witnesses by evaluation |
| C62 | `Printf`, `prs`, `print_list`, the directive macro, `printf` without arguments | induction over the fields of a format; one lemma per directive against a padding specification; two's complement digits by induction on the width |
| C63 | `Sscanf`, `in_range` | induction over the fields, with the input split at the end of each field |
| C64 | `Save_graph`, `Load_graph`, `can_be_saved`, `write_g_ptr`, `read_g_ptr` and their records, the file of strings, the signature | the reader is run on the text of the writer: induction over the calls of the writer, with the invariant that the pointer map covers exactly what the writer has seen; termination by the number of unseen nodes |
| C65 | the two bits of the reference count, `dec_ref_cnt`, `Get_node`, `Mark`, `sweep`, `Do_garbage_collect`, the rules of `traverse_left` with their changes of counts, reference variables, caches | invariant over all histories: the number of references to a node is at most what its count says, and all nodes in use agree with the plain graph in which nothing is reclaimed; `dec_ref_cnt` with the nodes being returned masked out; marking by counting visits |
| C66 | the functions of list_ops.c, with their loops, buffers and hash tables; the four tables of tables and what a collection does to them; `qsort` with the two static variables | induction over lists; invariant over all sessions: each table has the first entries of its list, up to where the next scan starts; `qsort` as a tree of comparisons |
| C67 | `Graph_cmp` on fully evaluated values | the order as an inductive relation; induction over the first value; with C66, sorting with `gcmp` |
| C68 | `compile_expr` with its helpers, `get_lhs_indices`, the loop of `traverse_pexlif` over update functions | the meaning of an expression is a relation between signal values and words; induction over expressions: an assignment of the declared nodes extends to the temporaries in exactly one way up to unknowns; with C36, STE verdicts about update functions |
| C69 | `rank_order`, `assign_rank` with the depth limit | induction over the depth budget with an invariant on the ranks given so far; composition of C68, C69 and C36 |
| C70 | `Split_vector_name`, `Expand_vector`, `vec_size`, `expand_constant`, `show_non_contig_vector` | well-formed segments as an invariant of reading; reading inverts writing by induction over segments; bits as a selection relation |
| C71 | `gen_merge_vectors` with the cyclic list | loop invariant relating the expansions, for permutation and for equality at once; a measure for termination; equal signatures imply equal texts |
| C72 | `gen_extract_vectors`, `make_range_canonical`, `compress_ranges` | set semantics of descending ranges; loop invariant; `qsort` as an arbitrary permutation |
| C73 | `declare_vector`, `name2idx`, `idx2name`, `vec2indices`, `map_vector`, `translate_range` | invariant over all declarations; the position of a bit in the expansion as the specification of strides; induction over segments and runs |
| C74 | the string builtins of `voss_strings.c` | induction over strings; occurrences as the specification of searching; uniqueness of the pieces of a split; grammar of matching braces for Tcl lists |
| C75 | `compile_regexp` | invariant of the cache; the first call is shown to be undefined |
| C76 | `unfold_pexlif` | substitution table as a sound map of bits; names with a new base name have new bits; counting argument for the search for new names |
| C77 | `get_top_adjacencies`, `Check_vector_overlap` | equal signatures and overlapping ranges in every group are the same as a common bit |
| C78 | `fold_pexlif` | membership in the sets of names as a condition on the adjacencies of C77 |
| C79 | `SHA256_printf`, `Get_SHA256_hash` | low halves of the words agree with the standard through all operations; invariant on buffer, hash and counters over the pieces |
| C80 | `sha256_signature` | lines can be read back; the table is a bijection between nodes and numbers, every number has its line |
| C81 | `internal_search_create`, `internal_search_step` | undo restores the matrix; the rounds of the loop go through a search tree, whose leaves are the occurrences: the matrix is a function of the columns chosen |
| C82 | `fp_pinst`, the attribute `FP` | fingerprints of equal structures are equal by induction on the structure; sums do not depend on the order, sorted lists are determined by their elements; decimal printing and reading |
| C83 | `sha_pinst`, the attribute `SHA` | the comparisons are total orders, hence the sorted lists depend on the elements only; the text can be parsed back; induction on the hierarchy with C79 for the hash |
| C84 | `mk_pinst` | the table of assertions holds a finite map (C29); induction over the instances and the declared names |
| C85 | `lp.c`: `LP`, `LPsol`, the two phases of the simplex method on rows that may share memory, its standard form, and its rationals | invariant of the tableau under pivots (solutions, unit columns, signs, cost), standard form sound and complete, optimality and rays; independent rows for driving out |
| C86 | `preamble.fl`: `param`, `fparam`, renaming to next-state variables, `bv_constrained_variable` | induction on the reduced tree of the condition in step with the sorted variables; induction on the variables to solve for |
| C87 | `preamble.fl`: `forcing`, `example`, `full_example`, `enumerate_examples`, `bv_examples` | induction on the tree, on the variables, and on the number of examples |
| C88 | `preamble.fl`: `bv_max`, `bv_min`, `bv_range`, `mutex`; symbolic conditionals of `graph.c` | induction on the bits with the substitutions made so far; path conditions |
| C89 | `preamble.fl`: `bv_pow`, `bv_shl`, `bv_shr`, `bv_ashr`, `bv_gcd`, `bv_reduce`, `bev_pow` | induction on a bound of the exponent, or of the divisor, on the path |
| C90 | `preamble.fl`: `para_eval` and the functions in it; `get_process_exit_status` | invariant of the loop over every behaviour of the processes; termination by what is still to do and the time |
| C91 | `preamble.fl`: `log2`, `ipow`, `bvpow`, `bl2int`, `int2bl`, `sbits_needed`, `ubits_needed`, `nearest_power_of_2`, `random`, sets of integers, `primes`, `factor`, `factorial`, `choose` | induction on the numbers; `sprintf` of C62 for the digits; exact count of the accepted draws for `random` |
| C92 | `preamble.fl`: `early_quant_thereis` with its tables of indices and counts | invariant of the rounds: the tables are exact for the variables that are left, each function depends on no quantified variable but those listed with it, and the quantified conjunction is unchanged |
| C93 | `rationals.fl` but for printing: `mk_rat`, `+`, `-`, `*`, `/`, `floor`, `round`, `str2rat` | comparison with the rationals of Mathlib; a repeated part as the number whose decimal expansion it is |
| C94 | `unary.fl`: all of its functions | lists of symbolic bits by induction, compared with the list that has one bit set |
| C95 | `bev.c`: all builtins but printing, saving and `bev_variable`; `bevTHEN`, `bevabs`, `bev_neg`, `bev_unary_minus`, `bexpr2bdd_bev` of the preamble | the functions on lists of C08-C13 at a package of expressions where different handles may denote the same function; a homomorphism from the constants for `bev2int` |
| C96 | `gen_arithm.fl` with `bool_arithm.fl`: all functions on vectors of fixed size | lists of the Boolean functions of C86, conditionals with the path condition as in C88; induction over the lists of bits, the division by an invariant over the bits of the dividend, the shifts by the distance of the count from what it is compared with |
| C97 | the same, all functions on vectors of any size | sign extension, then the functions of C96; products and quotients by absolute values |
| C98 | `symbol.c`: the table of functions, the list of definitions, `begin_abstype`, `end_abstype`, `export`, forward declarations, type declarations | a stack of scopes as specification; the list of definitions is cut into one segment for each open scope, and each segment is related to its scope by the first visible definition of each name; induction over the session |
| C99 | `symbolic_lists.fl`: all functions; what a conditional makes of two symbolic lists | a symbolic list denotes a list for each assignment; induction over the list with the condition of the enclosing conditionals, as for C86-C89; arguments that are not evaluated are modelled where it matters |
| C100 | `bv_sum`, `gen_model_count` (bv.c) and the wrapper for signed values (preamble.fl) | the recursion over the decision tree with its cache and the two conjunctions of variables that are walked through; invariant: the position in both agrees, cache entries are the counts from the top variable on; compared with the sum over all assignments |
| C101 | symbolic matrices (smatrix.fl) | a matrix is a vector that depends on index variables; the element at (i, j) is its value under the assignment with i and j in the index variables; `mk_sub` loads an index, `param` picks one, `bv_sum` (C100) adds over the inner index |
| C102 | conditional sections (lexer) | the lexer as a machine over lines with the table, the stack of polarities and the start condition; compared with a recursive meaning of nested documents |
| C103 | string literals (lexer) | the two rules as a scanner, `expand_string` and `merge_strings` character by character; compared with a relation between texts and what they say |
| C104 | list functions of preamble.fl | the recursions on lists as they are written, with a failure as a separate result; compared with functions and positions of lists |
| C105 | gen_u_arithm.fl with bool_u_arithm.fl | lists of functions as for C96; compared with the natural number of the bits under every assignment |
| C106 | pretty.fl and doc.c | documents as trees, one total function for each function of the library; the specification is a set of layouts (lists of lines with indentation) for each combinator; invariant on reduced documents by induction |
| C107 | `get_minimum_value`, `get_maximum_value` | the digits chosen one after the other, each choice substituted by `param` (C86); induction on the vector, with the lexicographic order of digits as the order of numbers |
| C108 | list functions of IDVII/src/fl/design/misc.fl | functions on lists, those that may run on without end with fuel, and the random ones with the draws as a parameter; inductions on lists, `permutations` by equality with the function of Mathlib |
| C109 | `vec_intersect`, `vec_overlap`, `vec_subtract`, `vec_zip` | the functions on names as parameters, with what they have to do as a structure; this is proved of the models of C70 and C72, for which extraction is shown to give names from which it can extract again; `vec_zip` by induction on the calls, with the order that merging keeps (C71) |
| C110 | printing of bit-vectors | the loop with its local variables, C `int` arithmetic with overflow as an outcome, the buffer of 4096 bytes; the printer of Boolean functions is a parameter |
| C111 | printing of strings | the linked lines as a list above, a current line and a list below; each line a buffer whose bytes may be unwritten, with writes outside the allocated bytes undefined; compared with a sheet of rows that extends in both directions |
| C112 | buffered files | the buffer as the list of its bytes; what each call of `read` gives, or that it fails, as a parameter; the number of calls bounded by an argument the result is shown not to depend on |
| C113 | plugins | each check on a function as a function from its description to the errors it logs, null pointers explicit; `snprintf` at a position of a buffer |
| C114 | `fixed_bv2list`, `fixed_bev2list` | lists of bits of any type with `lastn` of C66; the numbers that bits stand for under each assignment |
| C115 | `vec_assoc`, `vec_rev_assoc` | on the models of C70 and C71; the substitution of bits as a relation |
| C116 | `smt.fl` | values of the solver with sorts, an assertion for each expression; induction on expressions |
| C41 | `random2` of `arb_prec.c` | value of a digit list built from arbitrary random words |
| C42, C44 | `B_Var` placement, `swap_down`, `user_defined_reorder` with its list of ordering variables | invariant "x is followed by x_n" over all histories; evaluation witnesses for bad names |
| C43 | `graph.c` P_FORALL/P_THEREIS: name generation, substitution, quantification | induction on expressions with de Bruijn binders; injectivity of the generated names |
| C45 | `scan_hash` with a deleting callback on the record manager of C31 | induction on the scan; evaluation witness |
| C46, C47 | `strmgr.c` on blocks of bytes | invariant "what was saved is still shown"; refinement to concatenation |
| C48 | `morestr.c:str2int` | induction on digits; evaluation witnesses |
| C49 | `uniq_buf.c` on C29 and C32 | refinement to lists without duplicates |

## What is modelled of each part

* **Integers** (`Verif/Arbi`): all arithmetic of `arb_prec.c` on digit lists.  Not modelled: the block allocator
  (blocks are fresh lists), reference counts, the guessed quotient's computation (any guess is allowed).
* **Bit vectors** (`Verif/Bv`): `bv.c` over an abstract interface `Fml` of Boolean functions.  The interface's
  laws are what `Verif/Bdd` proves of the BDD package.
* **BDDs** (`Verif/Bdd`): unique table with arbitrary hash function, result cache with arbitrary replacement of
  slots, complement edges, `bdd_step`, quantification, `Rel_prod`, substitution, truth cover, support, save and load as
  lists of records, mark-and-sweep, sifting and requested orders with the sequence of decisions and interrupts arbitrary.
  Not modelled: table growth beyond memory, percentages and time limits that only choose decisions, printing, the
  character layout of the save file, `B_Size`, SHA.
* **Support library** (`Verif/Lib`): `hash.c` (any hash function and equality that fit together), `generation_hash.c`,
  `rec.c` (addresses, blocks, free list), `buf.c` (with 32-bit sizes), `uniq_buf.c`, `strmgr.c`, `str2int`.  Not modelled:
  `malloc` itself, failure to get memory, `timer.c`, `readrc.c`, aliasing between a string and the buffer it is appended to.
* **Circuit primitives** (`Verif/Sim`): every `op_*` function of `fsm.c` on dual-rail words over abstract Boolean operations,
  with the 32-bit shift counters.  The BDD size limit is modelled as an arbitrary test; information-flow weakening is not.
* **STE simulator** (`Verif/Ste`): `gSTE` from the listed items to the verdicts: events, active-event lists, `update_node`, the wheel
  of ranks, `do_combinational`, `do_phase`, constant propagation, checks.  The order in which `qsort` leaves equal events is
  arbitrary.  Executions (specification) have no beginning: the constant propagation through registers in `initialize` is
  not sound for executions that start in an arbitrary state at time 0.  Not modelled: node names, trace recording,
  messages, the options of STE, interrupts, garbage collection.
* **And-inverter expressions** (`Verif/Bexpr`): `bexpr.c`: node array with free list, unique table, signatures and their chains,
  simplification, merging by SAT queries, clauses of `minisat_ifc.cc`, mark and sweep, substitution, conversion to and from BDDs,
  save files down to their characters and the `fscanf` calls that read them, models.  The solver is an arbitrary function
  of the history whose definite answers are assumed right and which may give up.  The BDD package is an interface whose laws
  are those of `Verif/Bdd`.  Not modelled: printing, SHA, drawing, interrupts, the size of the read buffer (names of 1024
  bytes and more overflow it; excluded by hypothesis), `int` overflow of node counters.
* **The fl compiler** (`Verif/Fl`): `compile.c` (renaming apart, substitution, alias removal, removal of argument names), free
  variable tables, `abstract_rec` and `compile` with the choice between them, `trarg` with its fresh names, clauses, guards,
  recursion, constructors.  Meaning is given in every combinatory algebra satisfying the rewrite rules of the reducer
  (`Spec.lean`, `PatSpec.lean`); `Engeler.lean` constructs a non-trivial one (the graph model with pairs, integers, strings,
  Booleans).  Not modelled: type checking and overloading, debug information, strict and cached definitions, named
  arguments in patterns.
* **The fl reducer** (`Verif/Fl/Heap*.lean`): heap cells with FORCED marks, the spine, the rules of the combinators and of the
  primitives for lists, pairs, comparison of scalars, conditionals, sequencing, pattern match failure and errors, functions
  of the external interface with scalar arguments, `force`, merging of structures under a symbolic condition, loading of code
  and linking of names, the sequence of commands at the top level.  The BDD package is an interface (`Bools`), the external
  functions a parameter (`Ext`) assumed to compute what the model of the language says (`Ops`).  Not modelled: reference
  counts, garbage collection, tracing, interrupts, recursion limit, reference variables, caching, `=` on structures.  Two tests
  are added: that the redex and the spine were not changed by the evaluation of an argument; otherwise the run counts as
  undefined.
* **Cached functions and tables** (`Verif/Cache`): values with the addresses of their nodes, `cache_eq`, `cache_hash`, `G_rec_hash`,
  the cache of calls with its growth, sessions of calls, collections and assignments; `table.c`.  What a function does is an
  arbitrary program of calls, collections and reads of reference cells; hash functions of other modules are arbitrary.
  Not modelled: reference counts, the reuse of table records, printing of tables.
* **The type checker** (`Verif/Type`): types, the store of bindings with its undo log, `get_real_type`, `occurs`, `unify`, copies,
  inference, restoring the store.  Every function takes a bound on its depth; the theorems say that it ends and what any
  answer means.  The types of primitives and of defined names are data.  Overloading: the search for alternatives, implicit
  arguments, the common type of the alternatives; alternatives that are themselves overloaded or have implicit arguments are not modelled.  Not modelled: positions in error messages.

**Formatted text** (`Verif/Io`).  `Fmt.lean` follows the macro `PROCESS_PRINTF_PAT` character by character, for `sprintf`, `printf` and `sscanf`.  Numbers are integers and their texts numerals, which C06 justifies.  The buffer of `strmgr.c` is a list that stops growing at 130000 characters.  Reading past the end of a string is the outcome `ub`.  The specification (`FmtSpec.lean`) does not mention the program: a format is a list of fields, and a field has a text.  Not modelled: evaluation of the arguments, `fprintf` and `eprintf` (the same text, sent elsewhere), the 4096 characters for `%B`.

**Saving and loading** (`Verif/Io/Save*.lean`).  The memory of a program is a partial map from addresses to nodes with the contents of the references, the open streams and the number of caches.  The writer makes the text of the file `graph` character by character, and the reader works on that text with models of `fscanf` for `%p` and `%d`.  A record is split into its head and its pointers, which are written and read in order.  The specification (`SaveSpec.lean`) says what a copy is.  Not modelled: external objects, `tar`, failing file operations, the depth of the C stack (`write_g_ptr` recurs along lists).

**Reclaiming of nodes** (`Verif/Gc/*.lean`).  `Model.lean` has the heap (objects, the two bits, the free list, the tables of reference variables and caches), reference counting, mark and sweep, and the rules of the reducer with each `INC_REFCNT` and `DEC_REF_CNT` in its place.  `Spec.lean` has the plain graph, what can be reached in it, when an operation makes sense, and its effect when nothing is reclaimed.  `Reach` runs both side by side.  The specification gets the addresses of new nodes from the allocator; `c65_fresh` shows that these are never in use.  Not modelled: marks on BDDs, expressions, integers and external objects, the flag FORCED, debug builds, builtin functions outside of graph.c and cache.c.  Assumption: what C code holds in local variables over an evaluation is reachable from the roots.

**List functions** (`Verif/Lst/*.lean`).  `Model.lean` has the functions of list_ops.c on lists and on nodes that are evaluated on demand (`heap`), `Assoc.lean` the four functions that keep tables, `Qsort.lean` sorting.  `Spec.lean` has the notions of the statements: members up to an equivalence, classes, walks along nodes, sessions, what the C standard says about `qsort`.  Not modelled: `foreach`, reference counts (C65), the evaluation of elements.

**Compilation of circuits** (`Verif/Comp/*.lean`).  `Model.lean` has word expressions, their widths as the code computes them, `compile_expr` (components and temporaries) and the update functions of one leaf; `Spec.lean` the widths and meanings of expressions; `Rank.lean` the ranking.  The table from names to nodes is a parameter (`look`).  Simplified: components are a list and fanouts are computed from it; error messages are not modelled.  Not modelled: hierarchy, name tables, attributes, visualisation information.

**Vector names** (`Verif/Vec/*.lean`).  `Model.lean` has reading, writing and expanding of names, `Merge.lean` and `Extract.lean` the two loops over cyclic lists; `Spec.lean` and `MergeSpec.lean` well-formed segments, selection of bits and the admitted names.  Strings are lists of characters; `sscanf` and `sprintf` of numbers are modelled by their contracts (a number that does not fit, and a text that does not fit into the buffer of 20 bytes, are undefined).  `qsort` is a parameter.  Not modelled: `merge_vectors`/`extract_vectors` with contiguous output, the vector database.

**Nodes of a circuit** (`Verif/Node/*.lean`).  `Model.lean` has the table of names, the array of nodes and the functions between names and nodes; `Spec.lean` signals, their bits and the nodes of runs.  It uses the model of vector names.  Sizes and node numbers do not overflow.  Not modelled: undeclared signals, `value_list`, drawing information.

**Strings** (`Verif/Txt/*.lean`).  `Model.lean` has the string builtins on lists of characters, with the functions of the C library modelled after its standard; `Spec.lean` occurrences, pieces and Tcl lists.  `Regex.lean` is the cache of regular expressions.  Not modelled: `strcasecmp`, `fnmatch`, the matching of regular expressions.

**Hierarchies of circuits** (`Verif/Hier/*.lean`).  `Model.lean` is unfolding, with the expansion and merging of names of `Verif/Vec`; `Adj.lean` adjacencies and folding.  The sets of names are lists in the order of insertion, where the program goes through hash tables.  Not modelled: `fold_pexlif`'s wrapper in fl, which adds fingerprints.

**Signatures** (`Verif/Sha/*.lean`).  `Spec.lean` is FIPS 180-4; `Model.lean` the hash of `sha256.c` with words of 64 bits; `Graph.lean` the text of a value.  `c80_signature_partial` does not assume that SHA-256 has no collisions (it has): it says that a wrong answer exhibits one.  Not modelled: `SHA256_bdd`, the functions of external objects, `SHA256_acyclic_type`.

**Searching for circuits** (`Verif/Iso/*.lean`).  `Model.lean` has one round of the loop of `lazy_search` as a function on the state of a search, with the arrays of the program (what was chosen, what was trimmed, the saved rows); `Spec.lean` says what an occurrence is.  `c81_matrices` is about matrices, `c81_search_partial` about circuits; the adjacencies are those of C77.

**Signatures of instances** (`Verif/Inst/*.lean`).  `Fp.lean` has the fingerprints of expressions, functions and instances with the table of primes and `qsort` as parameters; `FpSpec.lean` says which circuits have the same structure.  Sizes of names are those of C70.  `Sha.lean` has the text that is hashed for an instance and the comparisons that sort functions and instances; `ShaSpec.lean` says which circuits are the same up to order and which names do not confuse the text.  The hash is that of C79.  `Mk.lean` makes instances, with the hash table of C29 and `str_hash`; `MkSpec.lean` says which instances state assertions.

* **Linear constraints** (`Verif/Lp`): all of `lp.c` without printing.  Rows are memory that the tableau points to, because
  `drive_out` leaves two pointers to one row.  The simplex method gets a number of rounds, `loop` says that they were not
  enough; theorems are for every number.  `Spec.lean` says what constraints mean.  `Rat.lean` has the fractions; the tableau
  is over `ℚ`.  Integers are `Int` (C01-C07).

* **Functions of the library** (`Verif/Pre`): parts of `preamble.fl`.  Boolean functions are reduced ordered trees over names
  (`Fn.lean`; `Fn.ext`: same function, same tree; C14 relates such trees to the BDDs).  Failures of the evaluator are `none`.
  Lists are evaluated completely before a conditional looks at them (`then` forces them), so no result depends on the
  branch that asked for it first (the violation of C54).

* **Symbolic conditionals** (`Verif/Pre/Range.lean`, `branch`): a conditional is evaluated under the conjunction of the
  conditions around it (`cur_eval_cond`); a branch that cannot be taken under it is not evaluated, and the results of two
  branches are merged, which fails for different integers.  Recursive functions get a bound for the depth of the calls; the
  theorems say that some bound suffices and that a larger one changes nothing.

* **Processes** (`Verif/Para`): a `World` says at which time each process has ended, with which exit status, whether it has
  written its result, which value, and what the uninitialised status variable holds at each call.  Each question about a
  process takes one unit of time.  Time limits, files that cannot be written and processes that cannot be started are not
  modelled.

* **Libraries** (`Verif/Vlib`): files of `src/vosslib`.  `Rat.lean` is `rationals.fl`; strings are lists of characters, and
  the text functions are those of C62 and C91.  `Unary.lean` is `unary.fl` over the functions of `Verif/Pre/Fn.lean`.

* **Scopes** (`Verif/Scope`): the table of names and the list of definitions, with `begin_abstype` and `end_abstype`.  A record is
  its number.  The hash table is an association list (C29).  Bodies, types, comments and positions are not modelled, and
  definitions that the type checker refuses do not occur.

* **The lexer** (`Verif/Lex`): conditional sections, line counting, loading of files, and string literals.  A file is a sequence
  of lines.  Tokens longer than a line, loads that fail and files that load themselves for ever are not modelled.

* **Arithmetic libraries** (`Verif/Gen`, `Verif/Ugen`, `Verif/Gmin`): `gen_arithm.fl`, `gen_u_arithm.fl` and the smallest and largest
  values, over the Boolean functions and conditionals of `Verif/Pre`.  Evaluation is strict: a function fails when a part of its
  result does.  The conversion of expressions to BDDs is not described.

* **Symbolic data** (`Verif/Slist`, `Verif/Smat`, `Verif/Sum`): symbolic lists with the merging of elements as a parameter, symbolic
  matrices called outside of symbolic conditionals, `bv_sum` and `gen_model_count` with the uninitialised field of the
  constant's record as a parameter.

* **Lists and names in fl** (`Verif/Plist`, `Verif/Misc`, `Verif/Vset`, `Verif/Vassoc`, `Verif/Fixed`): functions on finite lists with completely evaluated results;
  sorting and random numbers are parameters.  `Vset/Model.lean` has the functions on names as parameters; `Real.lean`, `Zip.lean`
  and `Whole.lean` put in the models of `Verif/Vec`.

* **Printing and files** (`Verif/Pretty`, `Verif/Bvstr`, `Verif/Pline`, `Verif/Fops`): texts are lists of characters.  The pretty printer
  is strict where fl is lazy; where it does not fail, the values are the same.  `Fops` has one open file, as the program has.

* **SMT** (`Verif/Smt`): the sorts and meanings of the assertions for a part of the word expressions, after the SMT-LIB standard.
  The solver, the text and the reading of models are not modelled.

* **Plugins** (`Verif/Plugin`): the checks on the descriptions of functions, with null pointers explicit, and the buffer for the
  errors.  `dlopen`, the addition of checked functions to the symbol table and all calls of them are not modelled.

## Findings

Places where the pinned code violates the property, each established by a theorem about the model.

| property | finding | theorem |
|----------|---------|---------|
| C02 | `arbi__mlt` traps on (-1) * (-2^63): the overflow test divides MinWord by -1 | `c02_mul_violated` |
| C03 | `divmod` by -2^63 can trap | `c03_div_violated` |
| C06 | printing: hang or undefined behaviour when the top digit is MinWord in the general path; a negative one-digit number in base 16 prints its two's complement.  Parsing: a bad string after `-` dereferences NULL | `c06_violated` |
| C13 | the empty bit list is accepted by `list2bv` and is undefined behaviour in every use | `c13_empty_ub` |
| C41 | `random` for 62 bits and more can return a negative number | `c41_random2_violated` |
| C17 | `Rel_prod` passes its Boolean flag to `quantify` as an operation code, so a terminal case quantifies with the wrong operation (and stores the wrong result in the shared cache, so that later plain AND calls are wrong too) | `c17_forall_violated`, `c17_thereis_violated`, `c17_poisons_and` |
| C20 | `truth_cover` with a duplicated variable name counts wrongly | `c20_duplicates` |
| C22, C42 | names ending in `_n_n` break the pairing of variables; reordering then works on a wrong neighbour | `c22_violated`, `c42_violated` |
| C43 | names made for bound variables collide: `x1` with counter 1 and `x` with counter 11 are both `%x11` | `c43_violated` |
| C44 | `var_order` with `a_n` calls `Wprintf` with a missing argument; with `_n` it reads out of bounds | `c44_violated` |
| C29 | growing a hash table reverses its chains: a key inserted twice then finds its older entry | `c29_violated` |
| C30 | generation hash: insert and delete in one generation follows a null pointer at its end; inserting twice leaves the first value; an overwritten key is left in the table twice | `c30_violated` |
| C32 | `fetch_buf` and `M_LOCATE_BUF` admit the index just past the end; sizes wrap around at 2^32 bytes, so pushing onto 2^28 pointers writes to a block of no bytes | `c32_violated`, `c32_overflow_violated` |
| C33 | node names with numbers of 2^31 and above: `atoi` is undefined | `c33_violated` |
| C45 | cleaning the BDD operation cache deletes the entry being scanned; if its bucket is the last block's only one, the block is freed and then read | `c45_violated` |
| C46 | strings of more than 130000 characters are not interned: equal strings get different pointers | `c46_violated` |
| C47 | a string of exactly 130000 characters in a private buffer writes one byte past its end | `c47_violated` |
| C48 | `0` is refused as a number; `0x1f` is 21; `08` and `0xg` are accepted | `c48_violated` |
| C34 | circuit left shift of more than 32 bits: the shift counter wraps to 0, so amounts of 2^32 and more shift by the amount mod 2^32 | `c34_violated` |
| C34 | circuit right shifts of 32-bit and wider words: `i - cnt` overflows `int` for every operand | `c34_shr_undefined` |
| C35, C38 | the lattice comparison is not monotone: weakening an input can turn a definite answer into its opposite | `c35_latleq_not_monotone`, `c38_latleq_violated` |
| C36 | two consequents on a node that overlap and end at different times: the end of the first switches off the check of the second, so a wrong circuit passes | `c36_overlapping_consequents_violated` |
| C36, C37 | a consequent (or trace) that starts where an antecedent or weakening on the same node ends clears the change flag: the node keeps its old value | `c36_lost_change_violated`, `c37_lost_change_violated` |
| C36 | an antecedent on the output of a register acts one time unit late | `c36_register_antecedent_violated` |
| C36 | zero-delay loops keep values whose cause is gone | `c36_loop_violated` |
| C36 | a failed relaxation prints a message, but the run goes on and may report success | `c36_failed_relaxation_accepted` |
| C36 | overlapping antecedents on a node that end at different times: the rest of the longer one is dropped | `c36_overlapping_antecedents_dropped` |
| C36 | `has_ant_or_weak_change` is never initialised; a garbage value on a constant node makes the constant unknown | `c36_uninitialised_flag` |
| C36 | an item with an empty interval follows a null pointer | `c36_empty_interval_undefined` |
| C37 | the iteration limit counts passes, not evaluations: a component reading its own output can oscillate for ever within one pass | `c37_limit_ignored` |
| C24 | after a garbage collection the constant is listed as a candidate for merging although it has no solver variable: a conjunction with the same signature indexes the solver's arrays with -1 | `c24_undefined` |
| C26 | `bexpr2bdd` stores its result in the node without the substitution: a call with another substitution returns the stale BDD | `c26_stale` |
| C28 | variable names with blanks come back as other variables; a file with a wrong header loads as the empty list | `c28_blank`, `c28_header` |
| C50 | `bITE` keeps its condition in a global variable that evaluating a branch overwrites: nested conditionals are wrong | `c50_nested` |
| C51 | `BE_NEQ` (change detection of the simulator on expressions) compares signatures with their signs removed: different functions are reported as equal | `c51_missed` |
| C39 | bound variables are renamed to `_ZZ'0`, `_ZZ'1`, ..., which are legal identifiers: a global of that name, or a user's bound variable, is captured | `c39_capture_global`, `c39_capture_bound` |
| C53 | arguments are called `Arg1`, `Arg2`, ..., which are legal identifiers: `let f x = Arg1` is the identity whatever `Arg1` is; `let f Arg1 y = y` gives its first argument | `c53_capture_global`, `c53_capture_parameter` |
| C53 | the part being matched is called `_q_<counter>`: a pattern variable of that name captures it | `c53_capture_pattern` |
| C54 | `let x = IF a THEN b ELSE c in IF a THEN x ELSE x` evaluates to `b`: a conditional reached inside a branch is decided by the condition of the branch, and the shared node is overwritten with the branch taken | `c54_context` |
| C54 | `IF a THEN NONE ELSE v` evaluates to `v` | `c54_none` |
| C54 | `a == b` on different symbolic Booleans is F, also where they are equal (documented as identity) | `c54_identical` |
| C55 | `let z = (error "x"):[1+2]; let y = 1:z; y; z`: the failing evaluation of `y` leaves `z` marked as evaluated; the evaluation of `z` then succeeds with a failure and an unevaluated part in it | `c55_after_failure` |
| C40 | a cached function called with a reference cell is answered by an entry made for another cell, or for what the cell held earlier | `c40_cells` |
| C40 | `0.0` and `-0.0` are one argument for a cached function | `c40_minus_zero` |
| C40 | vectors that differ in redundant sign bits are one argument when their hash values collide | `c40_vector_length` |
| C40 | a polymorphic cached function called with objects of two classes compares them with the function of one class | `c40_classes` |
| C56 | a table is changed in place: a second node for it sees the change | `c56_copy` |
| C56 | `tbl_insertn` that fails on a key leaves the entries before it in the table | `c56_insertn` |
| C56 | a key with a reference cell is lost when the cell is assigned to | `c56_cell_key` |
| C56 | equal vectors of different lengths are different keys (sometimes) | `c56_vector_key` |
| C56 | `=` on two references to one table (or STE result) returns BDD node 1 instead of T | `c56_table_equality` |
| C57 | reference cells are polymorphic: `let r = ref [];` can hold integers and be read as strings | `c57_cells` |
| C57 | types are compared by name: after a type is declared again, old values have the new type | `c57_redefined_type` |
| C57 | the assertion `e::tbl` (no arguments) on a table follows a null pointer | `c57_tbl` |
| C58 | the type of a name overloaded with `* -> *` and `int -> string` is `* -> *`: `(f 1)::string` is refused | `c58_common_violated` |
| C58 | alternatives added to an open overloading do not change its type | `c58_open_violated` |
| C58 | `overload f {id::int->int}` makes `id` itself a function on integers | `c58_choice_specialises` |
| C59 | a type declared twice is the same type: an integer put in by the old constructor comes out as a string | `c59_new_violated_again` |
| C59 | declaring a type with the name of a built-in type or an abbreviation makes constructors of that type | `c59_new_violated_name` |
| C59 | `lettype t = A *a` is accepted, and taking `A 1` apart gives a value of any type | `c59_take_apart_violated` |
| C59 | a type used without its arguments before it is declared loses its parameters | `c59_types_violated` |
| C59 | mutually recursive types with parameters are rejected, and accepted when entered again | `c59_accepted_violated` |
| C59 | undeclared types are accepted as arguments of declared types | `c59_undeclared_violated` |
| C59 | `lettype t = A tbl` follows a null pointer | `c59_crash_violated` |
| C61 | `(int#int)#int` and `int#(int#int)` print the same, and so do `(bool->int)#int` and `bool->(int#int)` | `c61_text_violated_tuple`, `c61_text_violated_arrow` |
| C61 | the signatures of different types are equal, so `read_foo` accepts a file written for another `foo` | `c61_signature_violated`, `c61_signature_violated_nested` |
| C62 | `printf "50%%"` prints two percent signs | `c62_printf_violated` |
| C62 | a format ending in `%` is read past its end | `c62_end_violated` |
| C62 | an unknown directive is dropped silently | `c62_unknown_violated` |
| C62 | with a negative width argument a negative number is refused | `c62_width_violated` |
| C62 | `%0b` of -5 prints `011`, the text of 3; `%4b` of 1 and -15 print the same | `c62_zero_violated`, `c62_bits_violated` |
| C62 | a text longer than 130000 characters is cut off silently | `c62_long_violated` |
| C63 | `sscanf "%5d"` reads the blank-padded output of `sprintf "%5d"` as 0, and any text that is no number too | `c63_blank_violated`, `c63_mismatch_violated` |
| C63 | `sscanf "%b"` reads back -1 as 3; the sign is not counted in the width | `c63_negative_violated`, `c63_sign_violated` |
| C63 | `sscanf "%x"` takes `g`, `G` and `:` for digits, which leads to a null pointer | `c63_hex_violated` |
| C63 | `sscanf "%5s"` reads past the end of a shorter input | `c63_short_violated` |
| C64 | a variable is saved, but there is no case for it when loading: fl stops | `c64_var_violated` |
| C64 | two nodes that are the same reference are loaded as two references | `c64_alias_violated` |
| C64 | a number with more than 130000 digits is cut off when it is loaded, without an error | `c64_long_violated` |
| C64 | the signature is compared only up to the length of the expected one: a file of a type with further constructors is accepted | `c64_prefix_violated` |
| C65 | `print_result_local` applies an installed print function to a value without counting the value: an element of the printed list is reclaimed while the list still refers to it | `c65_print_violated` |
| C66 | `lastn` and `butlastn` with a negative number follow a null pointer | `c66_lastn_violated` |
| C66 | numbers are cut to 32 bits (`lastn 4294967297 l` is `lastn 1 l`) and numbers over 64 bits follow a null pointer | `c66_wide_violated` |
| C66 | `firstn n` and `el n` evaluate the tail after the n-th element and fail if it fails | `c66_firstn_violated` |
| C66 | `assoc` on keys with reference cells: after an assignment an entry that is in the list is not found | `c66_cells_violated` |
| C66 | `qsort` with a comparison function that uses `qsort` sorts wrongly, and jumps into a dead frame if it fails | `c66_qsort_violated` |
| C66 | `union` removes duplicates only if both lists are non-empty | `c66_union_duplicates` |
| C67 | `gcmp T F` is negative and `gcmp F T` overflows (on usual machines it is negative, too) | `c67_bool_violated` |
| C67 | `gcmp` of expressions compares 32 bits of their addresses: different ones may be equal | `c67_bexpr_violated` |
| C67 | `gcmp` of two files is 0; `gcmp (sprintf "%d") f` follows a bad pointer | `c67_prim_violated` |
| C68 | the width of a memory read is taken to be that of its address; a zero extension of one drives a node with two bits | `c68_memory_read_violated` |
| C68 | the delay of a predicate is dropped | `c68_delayed_predicate_violated` |
| C68 | negative slice indices are accepted; evaluation reads beyond the inputs | `c68_slice_index_violated` |
| C68 | indices of updates are not checked; a wrong one writes outside of the result | `c68_update_index_violated` |
| C69 | ranks are wrong on paths of more than 1000 components | `c69_depth_violated` |
| C70 | `md_size "0b"` is 0 but `md_expand_vector "0b"` has one element | `c70_size_violated` |
| C70 | indices beyond `int` are undefined behaviour; the least `int` as an index loops | `c70_huge_violated` |
| C71 | the bits of a matrix listed by columns are merged into a name that lists them by rows | `c71_order_violated` |
| C71 | a name with an asterisk in brackets is taken for a vector with the same signature: null pointer | `c71_asterisk_violated` |
| C71 | signal names beginning with `0b` are concatenated as constants | `c71_prefix_violated` |
| C71 | a range of two ten-digit numbers overflows a buffer of 20 bytes | `c71_buffer_violated` |
| C72 | `md_extract_vectors ["x[0,2]"]` is `["x[2:0]"]` | `c72_gap_violated` |
| C72 | extraction can list a bit twice | `c72_repeat_violated` |
| C73 | `get_stride` takes the absolute value of `upper-lower+1`: with `m[1:0][0:3]` the bits `m[0][0]` and `m[1][2]` are the same node | `c73_ascending_violated` |
| C73 | with `m[1:0][0:1]` the stride is 0 and nodes have no name | `c73_stride_violated` |
| C73 | `name2idx` adds offsets to the first node of a formal although its actuals need not be consecutive: a bit resolves to a node of another signal | `c73_formal_violated` |
| C73 | a signal with an escaped name in an instance is not found, a vector with an escaped name is undefined behaviour | `c73_escaped_violated`, `c73_escaped_vector_violated` |
| C73 | a name of several bits is taken for its first bit without a message | `c73_multi_violated` |
| C74 | `string_lastn`, `string_butfirstn` with a negative number read outside the string; `string_butlastn` writes outside its buffer | `c74_negative_violated` |
| C74 | `substr` with a large count: signed overflow in the check | `c74_substr_violated` |
| C74 | `gen_trim` with an empty suffix runs past the end of the string | `c74_gen_trim_violated` |
| C74 | `str_cluster` with size 0 divides by 0, with size -1 writes before its buffer | `c74_cluster_violated` |
| C74 | `str_split` of an empty string gives no pieces | `c74_split_violated` |
| C74 | `tcl2list` with a backslash at the end skips the terminating zero; escapes, double spaces and unmatched braces are not treated as in Tcl | `c74_tcl_violated` |
| C75 | the test for an empty line of the regexp cache is inverted: the first use of a regular expression frees and overwrites the line with index -1 | `c75_first_violated`, `c75_full_violated` |
| C76 | `unfold_pexlif` swaps wires when the bits of a matrix are connected column by column | `c76_order_violated` |
| C76 | an internal with an escaped name cannot be renamed | `c76_escaped_violated` |
| C76 | a pin connected to nothing: a null pointer is read | `c76_open_violated` |
| C77 | `x[0:3]` is adjacent to nothing; `x[3,1]` is not adjacent to `x[1]` | `c77_upward_violated`, `c77_list_violated` |
| C78 | a wire that is also used outside is removed from the internals of the circuit | `c78_lost_violated` |
| C78 | bits are declared as internals and as outputs | `c78_twice_violated` |
| C78 | attributes are dropped; wires that nobody drives are not declared | `c78_attrs_violated`, `c78_undriven_violated` |
| C79 | `SHA256_printf` cuts off what is longer than 4095 characters | `c79_long_violated` |
| C80 | two different pairs of strings with newlines have the same signature | `c80_newline_violated` |
| C80 | strings that differ only after 4092 characters have the same signature | `c80_long_violated` |
| C80 | `(x, x)` and a copy of it have different signatures | `c80_sharing_violated` |
| C80 | the contents of a reference are visited and not linked | `c80_ref_violated` |
| C80 | `sha256_signature` of a Boolean expression with a conjunction prints a number with `%s` | `c80_bexpr_violated` |
| C81 | fingerprints are printed with 64 bits and read by the search with `atoi` | `c81_fingerprint_violated` |
| C81 | a search for a needle without wires fails | `c81_unwired_violated` |
| C81 | the search does not look at the direction of wires | `c81_direction_violated` |
| C82 | factors commute: `~(a & b)` and `~a & ~b` have the same fingerprint, and the search of C81 takes one for the other | `c82_function_violated` |
| C83 | actuals are separated by a space and pins by `act[n]:` in the text that is hashed, and names may contain both: different connections have the same signature | `c83_space_violated` |
| C83 | a leaf without functions and a hierarchy without instances have the same signature | `c83_empty_violated` |
| C84 | internals for assertions are declared in the order of a hash table, which depends on the order of insertion: the SHA of a circuit depends on the order of its instances | `c84_order_violated` |
| C84 | an assertion that is a bit of an internal vector is declared a second time | `c84_bits_violated` |
| C85 | `bfs` adds the two halves of a variable that may be negative: `LPsol [([1],"=",-1)]` is `[1]` | `c85_negative_violated` |
| C85 | for strict inequalities without bound the values stay on the boundary: `LPsol [([1],">",0)]` is `[0]` | `c85_unbounded_violated` |
| C85 | `LP` accepts `x <> 1, x >= 1, x <= 1` | `c85_notequal_violated` |
| C85 | a redundant equation makes `drive_out` remove a wrong row, and `LP` accepts what has no solution | `c85_redundant_violated` |
| C85 | three times the same equation ends the program (`DIE`) | `c85_dies_violated` |
| C85 | the choice of pivots may go round in a circle: `LP` does not end | `c85_endless_violated` |
| C86 | `fparam` names its variables by adding `_n` without looking whether the name is taken: solutions are lost | `c86_clash_violated` |
| C86 | a failure to rename is caught in `fparam`, and the variable left free: the result does not satisfy the condition | `c86_overlap_violated` |
| C87 | `full_example` gives an example of a condition that cannot be satisfied | `c87_full_violated` |
| C87 | `enumerate_examples` says `...` although all are listed | `c87_dots_violated` |
| C87 | `bv_examples n` prints n+1 examples | `c87_count_violated` |
| C88 | `bv_max` and `bv_min` fail for every bit-vector that can be both negative and not | `c88_mixed_violated` |
| C88 | `mutex` is false when only the first bit is set | `c88_mutex_violated` |
| C89 | `bv_reduce` uses the smallest divisor of a pair of values: with the values 6, 3, 2 it divides by 2 | `c89_reduce_violated` |
| C89 | `bv_reduce` fails on every constant | `c89_reduce_constant_violated` |
| C89 | `bv_reduce` divides negative vectors by a negative number | `c89_reduce_negative_violated` |
| C89 | `bev_pow` never terminates, so `bev_shl`, `bev_shr` and `bev_ashr` with an expression do not either | `c89_bev_pow_violated` |
| C90 | `para_eval` with `single_winner` gives the value of one expression at the place of another | `c90_winner_violated` |
| C90 | `para_eval` with `single_winner` fails if no process succeeds | `c90_none_violated` |
| C90 | `get_process_exit_status` reads an uninitialised status, so that a running process can count as dead | `c90_junk_violated` |
| C90 | `para_eval` with `max_processes` 0 never ends | `c90_zero_violated` |
| C91 | `**` on bit-vectors never terminates if the exponent can be negative | `c91_bvpow_violated` |
| C91 | `int2bl 4 9` gives the bits of -7 and `int2bl 4 (-15)` those of 1 | `c91_int2bl_violated` |
| C93 | dividing by a negative rational gives a negative denominator, and `=` compares forms: 1/(-2) is not (-1)/2 | `c93_form_violated` |
| C93 | dividing a rational by 0 gives 1/0 | `c93_zero_violated` |
| C93 | `str2rat "-3"` is 3 | `c93_integer_violated` |
| C93 | `str2rat` reads any text as a number: `abc` is 0, `1.2x` is 51/50 | `c93_syntax_violated` |
| C94 | in unary representation `greater`, `less`, `geq` and `leq` all mean "different", and `equal` never holds | `c94_compare_violated` |
| C94 | `num2bv` accepts negative numbers, and gives a list without a bit | `c94_negative_violated` |
| C94 | `value` reads lists without a bit (an overflow) as 0, of two bits the last, and symbolic last bits | `c94_value_violated` |
| C95 | `bev_ashr` by the number of bits or more gives a bit-vector without bits; using it reads the head of the empty list | `c95_ashr_violated` |
| C95 | `=` and `==` on bit-vectors of expressions are false for equal functions with different handles, e.g. `a bAND b` and `b bAND a` | `c95_equal_violated` |
| C96 | `'\|>>'` compares the count with a vector of sign bits: every negative number is shifted one place too far (-8 by 0 is -4), and not at all by the greatest count | `c96_ashr_violated` |
| C96 | `'/'` and `'%'` compare as signed numbers but shift in bits without sign: -1 by 2 is 7, 4 by -1 is -3 | `c96_div_violated` |
| C96 | shifts convert the size to a vector of that size: vectors of one or two bits cannot be shifted | `c96_short_violated` |
| C96 | `'!='` and `'<='` are defined by the functions for any size and accept vectors of different sizes, unlike `fbvneq` and `fbvleq` | model |
| C97 | `''*''` and `''/''` fail when the sign is symbolic and the negated vector has another length (lists of different length cannot be merged) | `c97_mult_violated`, `c97_div_violated` |
| C97 | `''/''` compares absolute values as signed numbers: -8 by 5 is 0; `''%''` is never negative: -7 by 2 leaves 1 though the quotient is -3 | `c97_div_violated` |
| C97 | `''<<''` does not grow: 3 by 1 is -2; `''\|>>''` extends the shorter vector with zeros: -3 by 1 is 2 | `c97_shift_violated` |
| C97 | `nat2dbv` makes no sign bit: 5 is read back as -3 | `c97_nat2dbv_violated` |
| C97 | line 530 declares the precedence of `''<<''` where `''>>''` is meant | read |
| C98 | `Merge_fn_defs` puts the constructors (and the other functions) of a type at the end of the list of definitions, below what `end_abstype` walks: constructors declared inside an abstract type are never hidden. The guide's example of a safe type of theorems is not safe: `THM` stays visible | `c98_constructor_violated` (for every session before and every list) |
| C98 | `end_abstype` looks only at the names of hidden definitions: a definition hidden by an inner abstract type is exported when an outer one lists its name | `c98_nested_violated` |
| C98 | an `end_abstype` with a name that is not defined prints an error, hides nothing, forgets the matching `begin_abstype` and sets the level to 1 | `c98_refused_violated`, `c98_level_violated` |
| C98 | a definition that came out of an abstract type shadows an older one of the same level without hiding it, and the older one can come back at the next `end_abstype` | `c98_stale_violated` |
| C98 | a name that is exported and then defined again, or declared, exported and then defined | `c98_export_violated`, `c98_forward_violated` |
| C98 | `end_abstype` takes the right to be used in patterns from all constructors whose name was defined inside, also from older ones that are visible again | `c98_pattern_violated` |
| C98 | `gen_u_arithm.fl` ends with a list that has `get_maximum_value`, `get_minimum_value` and `SX`; `bool_u_arithm.fl` defines none of them, so that the list is refused and all help functions stay visible | read |
| C99 | `s_accumulate`: `s_last sl` is evaluated when the shortest list ends, under the condition that it does, and that value is used for all lengths: `s_accumulate (defix AND) (c => [a] \| [a,b])` is `a` (an occurrence of the violation of C54 in the library) | `c99_accumulate_violated` |
| C99 | `s_append (c => [] \| [a]) (c => [] \| [b])` is `[a]` where `c` does not hold, for the same reason | `c99_append_violated` |
| C100 | `bv_sum [] '5` is 10: the conjunction of no variables is ONE, but the walk through the variables ends at ZERO (bv.c:1671) | `c100_constant_violated` |
| C100 | `get_next_vars` (bv.c:1620-1640) reads record 0 of the table of nodes, which is never initialised, when all free variables were walked through (the test is for ONE, the walk ends at ZERO): with 0 there, the first variable ever created is not summed over if reordering put it after all free variables | `c100_record_violated` |
| C101 | `get_element` with a negative row gives an element of the matrix: only `>=` the size is tested, and `mk_sub` takes the last bits (smatrix.fl:152-158) | `c101_negative_violated` |
| C101 | `set_element` accepts an index outside of the matrix that fits in the index variables; `get_element` and `smatrix2matrix` do not show the element, `*` adds it (smatrix.fl:160-164, 229-243) | `c101_outside_violated` |
| C102 | the stack of conditional sections starts with one entry, so the test for an unmatched `#endif` finds only the second one (lexer:291-296, 571-572) | `c102_unmatched_endif_violated` |
| C102 | an unmatched `#else` flips that entry: the rest of the file is skipped, and so are sections in files loaded later (lexer:243-265) | `c102_unmatched_else_violated` |
| C102 | a section left open at the end of a loaded file is not reported and the rest of the file that loaded it is skipped: the start condition is not restored (lexer:831-887) | `c102_open_violated` |
| C102 | the name of `#define` and `#ifdef` includes the blanks after it; `#else` and `#endif` with a blank after them are no directives (lexer:213-330) | `c102_blank_violated` |
| C103 | the newlines between the parts of a continued string literal are not counted in the line number (lexer:648-650) | `c103_line_violated` |
| C104 | `transpose` accepts rows of different lengths if the first is the shortest and drops what does not fit; it fails on the empty matrix (preamble.fl:1623-1629) | `c104_transpose_violated` |
| C105 | `bv_trim` removes leading ones as well, although the numbers have no sign: fixed size 14 % 15 is 2; with vectors that use their top bit, 2 ''+'' 1 is 1 and 2 ''\|'' 1 is 1; 2 ''-'' 3 is 1; 3 ''<<'' 1 is 2 (gen_u_arithm.fl:16-23) | `c105_div_violated`, `c105_dyn_violated`, `c105_dynbitwise_violated`, `c105_dynshift_violated` |
| C105 | `int2dbv 0` fails, since `bits_needed` takes the logarithm of 0 (gen_u_arithm.fl:43-51) | `c105_zero_violated` |
| C105 | `int2fbv` gives a vector longer than asked for when the number does not fit (gen_u_arithm.fl:71-75) | `c105_fit_violated` |
| C105 | `''>''` drops its arguments and returns a function (gen_u_arithm.fl:195) | `c105_greater_violated` |
| C105 | the arithmetic shift compares the count with a vector of sign bits: if the top bit is 1 it shifts one place too far (gen_u_arithm.fl:379-392) | `c105_ashr_violated` |
| C106 | `doc2print` writes the indentation with `"%*s"` and the text of one blank: at column 0 there is a blank in front of the line, and a column to the left of the margin is written as one to the right of it (doc.c:180) | `c106_indent_violated` |
| C106 | `vcat` leaves a `Nil` at the end of its chain, and `aboveRed` then drops the flag of a `$+$` that follows: `vcat [text "a"] $+$ nest 5 (text "b")` is one line (pretty.fl:132-133, 164-173) | `c106_plus_violated` |
| C107 | In bexpr_arithm.fl the digits found are read by `bv2num`, without sign: whenever some value is negative, the minimum given is positive (bexpr_arithm.fl:47, 69) | `c107_bexpr_violated` |
| C107 | bexpr_u_arithm.fl has the text of the version with sign: the minimum of a vector whose first digit depends on a variable has this digit set, the maximum has it clear, and the minimum exceeds the maximum (bexpr_u_arithm.fl:36-70) | `c107_unsigned_violated` |
| C108 | `chunks n` of a list that is not empty never ends if `n` is below 1: it goes on giving empty parts (misc.fl:215-220) | `c108_chunks_violated` |
| C108 | `remove n` and `modify f n` change the first element if `n` is 0 or negative, where places behind the end change nothing (misc.fl:233-244) | `c108_remove_violated` |
| C109 | `vec_subtract ["a[1:0][1:0]", "a[1][2:1]"] ["a[1:0][1:0]"]` is `["a[1][2:1]"]`, which has the bit `a[1][1]` of the second list: names in both lists are dropped before the bits are compared (vector_names.fl:81-84) | `c109_subtract_violated` |
| C109 | `vec_overlap ["0b01"] ["0b1"]` is F and `vec_intersect` is `[]`, although both have the bit `0b1`: the signature of a constant is the constant (vector_names.fl:14-18, voss_strings.c:225-239) | `c109_constant_violated` |
| C109 | `vec_zip ["x[3,3,2]"] ["a[1:0]", "b"]` pairs `x[3]` with `a[1:0]` and loses the second `x[3]`: identical names are not merged, and only the first name is used (voss_strings.c:1985-1988, vector_names.fl:102-103) | `c109_zip_repeat_violated` |
| C109 | `vec_zip ["m[1:0][1:0]"] ["a[2:0]", "b"]` pairs `m[1][1:0]` with `a[2:0]` and loses `m[0][1]`: only the first name that merging gives is used (vector_names.fl:102-103) | `c109_zip_violated` |
| C110 | printing a constant vector of 31 or more bits with the sign bit set computes `1 << sz` out of the range of `int`, even if the value is -1; one of `2^31` or more overflows `value` (bv.c:193-213) | `c110_value_violated`, `c110_undefined` |
| C110 | the empty vector is printed as `> (0)`: the opening bracket is the separator before the first bit (bv.c:185-189, 208) | `c110_empty_violated` |
| C110 | the text goes into a buffer of 4096 bytes and is cut there: from 2048 constant bits on (bv.c:178) | `c110_long_violated` |
| C112 | `LL_Read` of more than 1024 bytes writes past `Tmp_buf`, although `LL_Write` takes records of any size (file_ops.c:17, 82-89) | `c112_long_violated` |
| C112 | a failed `read` returns -1, which is taken for the size of the buffer: the loop reads again without end (file_ops.c:199-200) | `c112_fail_violated` |
| C113 | a plugin function without a type or strictness is reported as such, but the following checks use the null pointer (plugin_checker.c:26-27, 76, 83, 140-144) | `c113_null_violated` |
| C113 | reports of errors longer than the buffer of 5120 bytes are written past its end: the position is increased by what `snprintf` would have written, and the size left becomes negative (plugin_errlog.c:45-47) | `c113_errors`, `c113_errors_violated` |
| C114 | `fixed_bv2list (-1) F bv` with `truncate` follows a null pointer: `lastn` does not check for negative numbers (preamble.fl:665, list_ops.c:681-691) | `c114_negative_violated` |
| C115 | `vec_assoc "a[3,1,2,0]" ["a[3:0]", "x[1:0][1:0]"]` is `["x[1:0][1:0]"]`, in which the bits for `a[1]` and `a[2]` have changed places: merging does not keep the order (C71; vector_names.fl:137-138) | `c115_matrix_violated` |
| C115 | `vec_assoc "a[0]"` with `a[1:0]` for `x` and `a[3:2]` for `y[2:0]` is `y[2]`: all pairs are expanded before they are zipped (vector_names.fl:134-136) | `c115_size_violated` |
| C116 | `ITE (a == b) x y` on vectors is sent as `(ite (= w #b1) x y)` although `w` is declared as `Bool`: the test asks whether the whole expression is a relation, not the condition (smt.fl:166-174) | `c116_ite_violated` |
| C116 | `(a == b) AND c` for a bit `c` is sent as `and` of a `Bool` and a bit-vector (smt.fl:54-62, 97-101) | `c116_and_violated` |

Read but not part of a theorem: `Get_SHA256_signature` writes `%p` into ten characters when the traversal fails; `SHA256_bdd` gives a node that is
first met negated a number with the opposite sign of later uses; `get_top_inst` takes an element of the wrong list; `check_for_satisfaction_with_SAT` prints the opposite of its answer; `bexpr_is_unsat` answers F on a
time-out (visible in `c25_unsat`); `Load_bexprs` does not check line numbers against the table; a slice with an index out of range on a left side makes `translate_range` go on to a
node before the vector, so that an unrelated node is driven; `no_weakening` of a compiled component is not initialised;
`make_input_arg` does not check the width of variables; `reorder` is documented to give a list of elements, but gives the pairs that it sorts (misc.fl:245-247); `STE` does not free its buffers if the events are inconsistent.
