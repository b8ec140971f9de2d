{"id": "C01", "title": "Integer addition, subtraction, negation and absolute value are exact", "statement": "For fl integers of any magnitude, x+y, x-y, -x and abs x denote exactly the mathematical integer; no result wraps, whatever the number of 64-bit digits, and results are in the minimal representation.", "quantifier": "all pairs of integers of unbounded size (all digit sequences)", "why_tests_cant": "digit/carry/sign-extension interactions occur at every length boundary; a test suite samples finitely many lengths and digit patterns", "anchors": ["src/bin/fl/arb_prec.c:arbi__add", "src/bin/fl/arb_prec.c:arbi__neg", "src/bin/fl/arb_prec.c:arbi__sub", "src/bin/fl/arb_prec.c:trim", "src/bin/fl/arb_prec.c:Arbi_add", "src/bin/fl/int_ops.c:Add_ops"]}
{"id": "C02", "title": "Integer multiplication is exact", "statement": "x*y denotes the mathematical product for all integers. (The pinned code traps on (-1)*(-2^63): one operand order of one product is undefined behaviour.)", "quantifier": "all pairs of integers of unbounded size", "why_tests_cant": "overflow detection of the one-digit fast path and the column carries of the schoolbook path depend on all digits; the failing pair is one in 2^128", "anchors": ["src/bin/fl/arb_prec.c:arbi__mlt", "src/bin/fl/arb_prec.c:Arbi_mlt"]}
{"id": "C03", "title": "Integer division and modulo obey the floor law", "statement": "For y\u22600, x = (x/y)*y + (x%y), and x%y is zero or has the sign of y with |x%y|<|y|; for y=0 division and modulo report failure instead of producing a number.", "quantifier": "all pairs of integers of unbounded size", "why_tests_cant": "the multi-digit loop refines a guessed quotient; agreement on samples says nothing about other digit patterns", "anchors": ["src/bin/fl/arb_prec.c:divmod", "src/bin/fl/arb_prec.c:arbi__div", "src/bin/fl/arb_prec.c:arbi__mod", "src/bin/fl/arb_prec.c:Arbi_div", "src/bin/fl/arb_prec.c:Arbi_mod", "src/bin/fl/int_ops.c"]}
{"id": "C04", "title": "Integer comparison is the numeric order", "statement": "=, <, <=, >, >= on fl integers agree with the order of the denoted mathematical integers; in particular equality of representations is equality of numbers.", "quantifier": "all pairs of integers of unbounded size", "why_tests_cant": "comparison looks at lengths first and relies on every producer having trimmed its result; that is a global invariant over all operation sequences", "anchors": ["src/bin/fl/arb_prec.c:Arbi_cmp", "src/bin/fl/arb_prec.c:arbi__cmp", "src/bin/fl/arb_prec.c:trim"]}
{"id": "C05", "title": "Integer bit-wise operators are those of infinite two's complement", "statement": "bitAND/bitOR/bitXOR/bitNOT on integers give, at every bit position, the Boolean operation of the operands' two's complement bits, also for negative operands and operands of different length.", "quantifier": "all pairs of integers and all bit positions", "why_tests_cant": "bit positions beyond the shorter operand are handled by sign extension, at unboundedly many lengths", "anchors": ["src/bin/fl/arb_prec.c:arbi__bvop", "src/bin/fl/arb_prec.c:Arbi_bvAND", "src/bin/fl/arb_prec.c:Arbi_bvOR", "src/bin/fl/arb_prec.c:Arbi_bvXOR", "src/bin/fl/arb_prec.c:Arbi_bvNOT"]}
{"id": "C06", "title": "Printing an integer and reading it back is the identity", "statement": "str2int (int2str x) = x in every base, and parsing a digit string yields the positional value or an error for a non-digit. (The pinned code breaks this for base-16 printing of one-digit negatives and does not terminate when the most significant 64-bit word is -2^63.)", "quantifier": "all integers, all bases 2..36", "why_tests_cant": "failing values sit at isolated word-boundary magnitudes", "anchors": ["src/bin/fl/arb_prec.c:Arbi_ToString", "src/bin/fl/arb_prec.c:Arbi_FromString", "src/bin/fl/arb_prec.c:Arbi_FromString"]}
{"id": "C07", "title": "gcd is the greatest common divisor", "statement": "gcd x y is non-negative, divides both operands, and every common divisor divides it; the computation terminates for all operands.", "quantifier": "all pairs of integers", "why_tests_cant": "divisor-maximality quantifies over all integers", "anchors": ["src/bin/fl/arb_prec.c:arbi__gcd", "src/bin/fl/arb_prec.c:Arbi_gcd"]}
{"id": "C08", "title": "Symbolic bit-vector addition and subtraction denote integer addition and subtraction", "statement": "For every assignment to the Boolean variables, the two's complement value of bv_add a b (bv_sub a b) is the sum (difference) of the values of a and b; no width or overflow restriction.", "quantifier": "all bit-vectors of all widths, all Boolean contents, all assignments", "why_tests_cant": "ripple-carry and sign-extension for all widths", "anchors": ["src/bin/fl/bv.c:bv_add", "src/bin/fl/bv.c:bv_sub", "src/bin/fl/bv.c:gen_add", "src/bin/fl/bv.c:add_rec", "src/bin/fl/bv.c:sx2", "src/bin/fl/bv.c:trim_bv"]}
{"id": "C09", "title": "Symbolic bit-vector multiplication denotes integer multiplication", "statement": "For every assignment the value of bv_mul a b is the product of the values of a and b, including negative operands and the most negative value of a width.", "quantifier": "all bit-vectors of all widths, all assignments", "why_tests_cant": "2^(n+m) operand pairs for every width pair", "anchors": ["src/bin/fl/bv.c:bv_mul", "src/bin/fl/bv.c:mult_bv_list", "src/bin/fl/bv.c:abs_bv_list", "src/bin/fl/bv.c:negate_bv_list", "src/bin/fl/bv.c:ite_bv_list", "src/bin/fl/bv.c:zx2"]}
{"id": "C10", "title": "Symbolic bit-vector division and modulo are floor division", "statement": "For every assignment under which b is non-zero, bv_div a b and bv_mod a b have the values of the floor quotient and remainder; the special path for constant powers of two agrees with the general path.", "quantifier": "all bit-vectors of all widths, all assignments with non-zero divisor", "why_tests_cant": "long division over all widths; symbolic/constant path agreement for every constant", "anchors": ["src/bin/fl/bv.c:bv_div", "src/bin/fl/bv.c:bv_mod", "src/bin/fl/bv.c:signed_bvdiv", "src/bin/fl/bv.c:fixed_ext_bvdiv", "src/bin/fl/bv.c:constant_power_of_two"]}
{"id": "C11", "title": "Symbolic bit-vector comparisons and equality are numeric", "statement": "For every assignment bv_less/leq/greater/geq and == on bit-vectors hold exactly when the numeric relation holds between the two's complement values, for operands of different widths.", "quantifier": "all pairs of bit-vectors of all widths, all assignments", "why_tests_cant": "mixed widths and signs", "anchors": ["src/bin/fl/bv.c:less_than_bv_list", "src/bin/fl/bv.c:less_rec", "src/bin/fl/bv.c:bv_eq_fn", "src/bin/fl/bv.c:bv_leq"]}
{"id": "C12", "title": "Integer to bit-vector conversion round-trips", "statement": "bv2int (int2bv n) = n for every integer n, int2bv n denotes n, and bv2int of any constant bit-vector is its two's complement value.", "quantifier": "all integers, all constant bit-vectors", "why_tests_cant": "unbounded magnitudes; the negative path edits a digit string in place", "anchors": ["src/bin/fl/bv.c:Aint2bv", "src/bin/fl/bv.c:bv2int", "src/bin/fl/bv.c:bv_list2int", "src/bin/fl/bv.c:do_int2bv"]}
{"id": "C13", "title": "Bit-vector shift, extension and bit-wise operators have their arithmetic meaning", "statement": "bv_ashr a n is floor(a/2^n); bv_NOT a is -a-1; bv_ZX reads the bits as unsigned; AND/OR/XOR/XNOR act per two's complement bit on operands of any widths; trimming never changes the value.", "quantifier": "all bit-vectors, shift amounts and assignments", "why_tests_cant": "all widths", "anchors": ["src/bin/fl/bv.c:bv_ashr", "src/bin/fl/bv.c:bv_NOT", "src/bin/fl/bv.c:bv_ZX", "src/bin/fl/bv.c:bv_AND", "src/bin/fl/bv.c:trim_bv"]}
{"id": "C14", "title": "Equal Boolean functions are represented by the same BDD", "statement": "After any history of BDD operations, two Boolean expressions compare equal (==, identical) exactly when they denote the same function of the variables.", "quantifier": "all histories of BDD operations, all pairs of functions; every history without relational products (they corrupt the cache, C17) that does not combine reordering with variable names ending in _n_n (undefined behaviour, C22)", "why_tests_cant": "canonicity is an invariant over histories of hash-consed graphs", "anchors": ["src/bin/fl/new_bdd.c:find_insert_bdd", "src/bin/fl/new_bdd.c:bdd_step", "src/bin/fl/new_bdd.c:B_Equal"]}
{"id": "C15", "title": "Boolean connectives denote the Boolean connectives", "statement": "NOT/AND/OR/XOR/XNOR/NAND/NOR/IF-THEN-ELSE on BDDs denote the pointwise connective for every assignment, whatever is in the unique tables and result cache, and never disturb the meaning of existing BDDs.", "quantifier": "all operands, all assignments, all histories (cache contents); every history without relational products (they corrupt the cache, C17) that does not combine reordering with variable names ending in _n_n (undefined behaviour, C22)", "why_tests_cant": "cache hits depend on the whole history", "anchors": ["src/bin/fl/new_bdd.c:bdd_step", "src/bin/fl/new_bdd.c:B_And", "src/bin/fl/new_bdd.c:B_Or", "src/bin/fl/new_bdd.c:B_Xor", "src/bin/fl/new_bdd.c:B_Ite", "src/bin/fl/new_bdd.c:B_Not"]}
{"id": "C16", "title": "Quantification denotes quantification", "statement": "Quant_forall / Quant_thereis over a set of variables hold at an assignment iff the body holds for all / some values of these variables.", "quantifier": "all functions, all variable sets, all assignments, all histories; every history without relational products (they corrupt the cache, C17) that does not combine reordering with variable names ending in _n_n (undefined behaviour, C22)", "why_tests_cant": "set of quantified assignments is exponential", "anchors": ["src/bin/fl/new_bdd.c:quantify", "src/bin/fl/new_bdd.c:B_forall", "src/bin/fl/new_bdd.c:B_thereis"]}
{"id": "C17", "title": "Relational product equals quantification of the conjunction", "statement": "relprod_thereis qv a b equals Quant_thereis qv (a AND b) and relprod_forall qv a b equals Quant_forall qv (a AND b), and neither disturbs later operations. (Violated by the pinned code: the operation passes a flag where an operation code is expected.)", "quantifier": "all functions, variable sets, histories", "why_tests_cant": "the wrong answers need particular cache contents or universal quantification of a particular shape", "anchors": ["src/bin/fl/new_bdd.c:Rel_prod", "src/bin/fl/new_bdd.c:quantify", "src/bin/fl/builtins.fl:relprod_thereis"]}
{"id": "C18", "title": "Substitution is simultaneous composition", "statement": "substitute [(x1,g1),...,(xn,gn)] f denotes f with every xi replaced by gi at the same time, and repeated variables are rejected.", "quantifier": "all functions, all substitution lists, all assignments; every history without relational products (they corrupt the cache, C17) that does not combine reordering with variable names ending in _n_n (undefined behaviour, C22)", "why_tests_cant": "order of composition matters only for particular variable orders", "anchors": ["src/bin/fl/new_bdd.c:do_substitute", "src/bin/fl/new_bdd.c:b_substitute", "src/bin/fl/new_bdd.c:add_to_subs"]}
{"id": "C19", "title": "depends reports exactly the support", "statement": "A variable is reported by depends exactly when flipping it can change the value of one of the expressions; the reported list is in variable order without duplicates.", "quantifier": "all functions, all variables; every history without relational products (they corrupt the cache, C17) that does not combine reordering with variable names ending in _n_n (undefined behaviour, C22)", "why_tests_cant": "support is a statement about pairs of assignments", "anchors": ["src/bin/fl/new_bdd.c:B_Depends", "src/bin/fl/new_bdd.c:depends"]}
{"id": "C20", "title": "Truth cover counts models", "statement": "truth_cover vars f is the number of assignments to the (distinct) listed variables that make f true, and fails when f depends on an unlisted variable.", "quantifier": "all functions, all duplicate-free variable lists; every history without relational products (they corrupt the cache, C17) that does not combine reordering with variable names ending in _n_n (undefined behaviour, C22)", "why_tests_cant": "exponential model sets", "anchors": ["src/bin/fl/new_bdd.c:truth_cover_rec", "src/bin/fl/new_bdd.c:truth_cover"]}
{"id": "C21", "title": "Garbage collection never changes live BDDs", "statement": "A garbage collection leaves the function denoted by every live BDD unchanged, keeps canonicity, and leaves no stale entry in the result cache.", "quantifier": "all heaps, all root sets, all later operations; every history without relational products (they corrupt the cache, C17) that does not combine reordering with variable names ending in _n_n (undefined behaviour, C22)", "why_tests_cant": "depends on which cache entries mention dead nodes and on reuse of their slots", "anchors": ["src/bin/fl/new_bdd.c:B_Clean", "src/bin/fl/new_bdd.c:garbage_collect", "src/bin/fl/new_bdd.c:clean_cache", "src/bin/fl/new_bdd.c:B_Mark"]}
{"id": "C22", "title": "Dynamic variable reordering never changes live BDDs", "statement": "Swapping adjacent variables (and hence any reordering) leaves the function denoted by every BDD handle unchanged and keeps canonicity.", "quantifier": "all heaps, all levels, all sequences of swaps", "why_tests_cant": "in-place rewriting of shared nodes for every sharing pattern", "anchors": ["src/bin/fl/new_bdd.c:swap_down", "src/bin/fl/new_bdd.c:do_swap_down", "src/bin/fl/new_bdd.c:re_order"]}
{"id": "C23", "title": "Saving and loading BDDs is the identity", "statement": "Loading a file written by the BDD save operation yields, in order, BDDs equal to the saved ones, even when the variable order at load time differs.", "quantifier": "all lists of functions, all variable orders at load time; every history without relational products (they corrupt the cache, C17) that does not combine reordering with variable names ending in _n_n (undefined behaviour, C22)", "why_tests_cant": "needs all sharing shapes and all orders", "anchors": ["src/bin/fl/new_bdd.c:Save_BDDs", "src/bin/fl/new_bdd.c:Load_BDDs", "src/bin/fl/new_bdd.c:b_save"]}
{"id": "C24", "title": "AND-inverter expressions denote the Boolean connectives", "statement": "Every constructor on bexprs denotes the pointwise connective, including structural simplification and merging of nodes proved equivalent, whatever the node table contains and whenever the SAT solver's UNSAT answers are right.", "quantifier": "all expressions, all histories", "why_tests_cant": "merging depends on signature collisions and solver answers over the history", "anchors": ["src/bin/fl/bexpr.c:be_and", "src/bin/fl/bexpr.c:be_find_insert", "src/bin/fl/bexpr.c:BE_Ite", "src/bin/fl/bexpr.c:BE_Or", "src/bin/fl/bexpr.c:BE_Xor"]}
{"id": "C25", "title": "The SAT encoding is faithful", "statement": "The clauses added for the nodes of an expression are satisfied by an assignment exactly when every node variable has its node's value; hence a query is satisfiable iff the expression is, and returned models satisfy it.", "quantifier": "all expressions, all assignments", "why_tests_cant": "all DAG shapes", "anchors": ["src/bin/fl/minisat_ifc.cc:SAT_Add_AND_Clauses", "src/bin/fl/minisat_ifc.cc:Find_model", "src/bin/fl/bexpr.c:bget_model"]}
{"id": "C26", "title": "Converting expressions to BDDs denotes the same function", "statement": "bexpr2bdd denotes the same function as the expression; with a substitution it denotes the composed function. (The pinned code memoises per node ignoring the substitution, so a second call with another substitution can return a stale answer.)", "quantifier": "all expressions, all substitutions, all call histories", "why_tests_cant": "stale results need two calls with different substitutions sharing a node", "anchors": ["src/bin/fl/bexpr.c:be2bdd", "src/bin/fl/bexpr.c:base_bexpr2bdd", "src/bin/fl/bexpr.c:bdd2bexpr"]}
{"id": "C27", "title": "Substitution on expressions is simultaneous", "statement": "bsubstitute replaces all listed variables simultaneously and rejects duplicates.", "quantifier": "all expressions, all substitution lists", "why_tests_cant": "as for BDDs", "anchors": ["src/bin/fl/bexpr.c:be_subst", "src/bin/fl/bexpr.c:bsubstitute"]}
{"id": "C28", "title": "Saving and loading expressions preserves their functions", "statement": "Loading a saved list of bexprs yields expressions denoting the same functions in the same order.", "quantifier": "all lists of expressions", "why_tests_cant": "all DAG shapes", "anchors": ["src/bin/fl/bexpr.c:be_save", "src/bin/fl/bexpr.c:Load_bexprs"]}
{"id": "C29", "title": "Hash tables behave as maps", "statement": "Under the interface contract (insert only absent keys, delete only present keys) any sequence of insert/delete/find/resize behaves as a finite map; without it, a later insert shadows and a delete uncovers.", "quantifier": "all operation sequences, all hash functions consistent with equality, all sizes", "why_tests_cant": "resizing and chains depend on the whole history", "anchors": ["src/lib/hash.c:insert_hash", "src/lib/hash.c:find_hash", "src/lib/hash.c:delete_hash", "src/lib/hash.c:resize_hash"]}
{"id": "C30", "title": "Ending a generation of a generation hash restores the table", "statement": "After begin_generation, any inserts/deletes, and end_generation, every key maps to what it mapped to before. (Violated by the pinned code for a key inserted and deleted, or inserted twice, in one generation.)", "quantifier": "all nested operation sequences", "why_tests_cant": "needs particular sequences per key", "anchors": ["src/lib/generation_hash.c:insert_gen_hash", "src/lib/generation_hash.c:delete_gen_hash", "src/lib/generation_hash.c:end_generation"]}
{"id": "C31", "title": "The record manager never hands out a live record", "statement": "For any sequence of new_rec/free_rec in which only live records are freed, a record returned by new_rec is distinct from all records still live, and the block structure stays in bounds.", "quantifier": "all operation sequences, all record sizes", "why_tests_cant": "aliasing needs particular free/allocate interleavings across block boundaries", "anchors": ["src/lib/rec.c:new_rec", "src/lib/rec.c:free_rec"]}
{"id": "C32", "title": "Growable buffers behave as stacks/arrays", "statement": "push/pop/store/fetch/resize on a buffer behave as on a sequence; access beyond the end is reported. (The pinned bound check admits one index past the end.)", "quantifier": "all operation sequences", "why_tests_cant": "off-by-one only at the exact end; growth depends on history", "anchors": ["src/lib/buf.c:push_buf", "src/lib/buf.c:pop_buf", "src/lib/buf.c:fetch_buf", "src/include/buf.h:M_LOCATE_BUF"]}
{"id": "C33", "title": "Node-name comparison is a total preorder", "statement": "The natural-order comparison used to sort node and variable names is reflexive, total and transitive (a valid sort key) and orders digit runs numerically.", "quantifier": "all triples of strings", "why_tests_cant": "transitivity quantifies over all triples of strings", "anchors": ["src/lib/strmgr.c:node_name_cmp"]}
{"id": "C34", "title": "Circuit simulation primitives are exact on Boolean values", "statement": "Each word-level circuit primitive (and/or/not/eq/gr/add/sub/mul/div/mod/shifts/ite/extend/slice/memory read/write), evaluated on fully defined values, yields the defined result of the corresponding unsigned word operation. (Shifts of words wider than 32 bits are wrong in the pinned code for shift amounts \u2265 2^32.)", "quantifier": "all widths, all operand values", "why_tests_cant": "all widths", "anchors": ["src/bin/fl/fsm.c:op_ADD", "src/bin/fl/fsm.c:op_SUB", "src/bin/fl/fsm.c:op_MUL", "src/bin/fl/fsm.c:op_DIV", "src/bin/fl/fsm.c:op_MOD", "src/bin/fl/fsm.c:op_SHL", "src/bin/fl/fsm.c:op_EQ", "src/bin/fl/fsm.c:op_GR", "src/bin/fl/fsm.c:op_ITE", "src/bin/fl/fsm.c:op_MEM_READ", "src/bin/fl/fsm.c:op_MEM_WRITE"]}
{"id": "C35", "title": "Circuit simulation primitives are sound for unknown values", "statement": "If the dual-rail inputs of a primitive admit given Boolean input words, then the dual-rail output admits the Boolean result: X never hides a possible value; and more defined inputs give more defined outputs.", "quantifier": "all widths, all ternary/overconstrained inputs", "why_tests_cant": "4^(2n) input patterns per width", "anchors": ["src/bin/fl/fsm.c:op_ADD", "src/bin/fl/fsm.c:op_ITE", "src/bin/fl/fsm.c:op_IDELAY", "src/bin/fl/fsm.c:op_LAT_LEQ"]}
{"id": "C36", "title": "A passing STE run is a proof about all circuit executions", "statement": "If an STE run reports success for an assignment of the symbolic variables, every execution of the circuit that satisfies the antecedent (and does not contradict it) satisfies the consequent at every listed time. (Violated by the pinned code in several event-coincidence cases.)", "quantifier": "all circuits, antecedents, consequents, weakenings, assignments and executions", "why_tests_cant": "quantifies over all infinite executions; the failing cases need particular coincidences of event times", "anchors": ["src/bin/fl/fsm.c:gSTE", "src/bin/fl/fsm.c:process_event", "src/bin/fl/fsm.c:update_node", "src/bin/fl/fsm.c:do_combinational", "src/bin/fl/fsm.c:do_phase", "src/bin/fl/fsm.c:gen_get_ste_result"]}
{"id": "C37", "title": "Combinational relaxation stops only at a consistent state", "statement": "When the event-driven relaxation reports success, every zero-delay component's outputs equal its function of the current node values (joined with weakenings and antecedents).", "quantifier": "all circuits, all schedules of pending components", "why_tests_cant": "depends on the schedule and on change detection", "anchors": ["src/bin/fl/fsm.c:do_combinational", "src/bin/fl/fsm.c:do_wl_op", "src/bin/fl/fsm.c:update_node", "src/bin/fl/fsm.c:add_op_todo"]}
{"id": "C38", "title": "Dynamic weakening is conservative", "statement": "With a BDD size limit, every simulated node value is at most as defined as without it, so a success under weakening is still sound.", "quantifier": "all size limits, circuits, values", "why_tests_cant": "limit can trigger at any gate evaluation", "anchors": ["src/bin/fl/fsm.c:BDD_c_limited_AND", "src/bin/fl/fsm.c:BDD_c_limited_OR"]}
{"id": "C39", "title": "The fl program optimiser preserves meaning", "statement": "Renaming bound variables apart and removing let-aliases yields a program with the same meaning, without variable capture.", "quantifier": "all lambda terms and environments", "why_tests_cant": "capture needs particular name collisions", "anchors": ["src/bin/fl/compile.c:mk_uniq_names", "src/bin/fl/compile.c:remove_aliases", "src/bin/fl/compile.c:substitute"]}
{"id": "C40", "title": "Memoised (cached) functions return what the function returns", "statement": "A call of a cached function returns the value stored for equal arguments by an earlier call, or computes it; replacing entries and resizing never returns a value for different arguments.", "quantifier": "all call histories, all sizes", "why_tests_cant": "depends on hash collisions across the call history", "anchors": ["src/bin/fl/cache.c:Find_in_g_cache", "src/bin/fl/cache.c:Insert_in_g_cache", "src/bin/fl/cache.c:cache_eq"]}
{"id": "C41", "title": "random2 returns a number of the requested size", "statement": "random2 bits returns an integer i with 0 <= i < 2^bits, whatever the underlying generator returns (builtins.fl documents exactly this). The pinned code breaks it from 62 bits on: the chunk factor 1<<31 is INT_MIN, so results can be negative.", "quantifier": "all bit counts and all values of the generator", "why_tests_cant": "the generator's output is external; small bit counts never show the failure", "anchors": ["src/bin/fl/int_ops.c:do_random2", "src/bin/fl/builtins.fl:random2"]}
{"id": "C42", "title": "Current- and next-state variables stay together", "statement": "After any history, including reorderings, the variable order keeps every variable x directly followed by its next-state copy x_n. (Violated by the pinned code for names ending in _n_n.)", "quantifier": "all histories of declarations and reorderings, all names", "why_tests_cant": "depends on the order in which related names are declared and on all reordering decisions", "anchors": ["src/bin/fl/new_bdd.c:B_Var", "src/bin/fl/new_bdd.c:do_swap_down", "src/bin/fl/new_bdd.c:user_defined_reorder"]}
{"id": "C43", "title": "Quantifiers bind exactly their variable", "statement": "An expression with quantifiers !x. e and ?x. e evaluates to the function obtained by trying both values of each bound variable; the BDD variables made up for bound variables never collide. (Violated by the pinned code: x1 with counter 1 and x with counter 11 give the same name.)", "quantifier": "all nested quantifier expressions, all values of the name counter", "why_tests_cant": "a collision needs a particular number of earlier quantifiers", "anchors": ["src/bin/fl/graph.c:P_FORALL", "src/bin/fl/graph.c:uniq_quant_cnt", "src/bin/fl/new_bdd.c:B_Var"]}
{"id": "C44", "title": "var_order establishes the requested order", "statement": "var_order [v1,...,vn] puts v1..vn first in the variable order, in this sequence, each followed by its next-state copy, without changing any function. (Violated by the pinned code for next-state variables and for the name _n.)", "quantifier": "all histories, all lists of distinct variable names", "why_tests_cant": "needs all previous orders and sharing patterns", "anchors": ["src/bin/fl/new_bdd.c:Add_ordering_var", "src/bin/fl/new_bdd.c:user_defined_reorder", "src/bin/fl/graph.c:P_VAR_ORDER"]}
{"id": "C45", "title": "Entries can be deleted while a hash table is scanned", "statement": "Scanning a table with a function that deletes some of the entries it is shown (as the BDD garbage collector does with the operation cache) visits every entry and leaves exactly the entries not deleted, without touching freed memory. (Violated by the pinned code once the table's buckets need a second memory block.)", "quantifier": "all tables, all sets of deleted entries, all scan orders", "why_tests_cant": "the access to freed memory depends on which bucket is the only one in the last block, i.e. on the whole history, and usually goes unnoticed", "anchors": ["src/lib/hash.c:scan_hash", "src/lib/hash.c:delete_hash", "src/lib/rec.c:free_rec", "src/bin/fl/new_bdd.c:clean_cache_rec_fn"]}
{"id": "C46", "title": "Saved strings stay, and interned strings are equal exactly when their pointers are", "statement": "A saved string can be read back unchanged after any later saves; the interning function returns the same pointer for two strings exactly when they are equal. (Violated for strings longer than 130000 characters.)", "quantifier": "all sequences of saves of all strings", "why_tests_cant": "overlap and truncation depend on the lengths of all strings saved before", "anchors": ["src/lib/strmgr.c:Strsave", "src/lib/strmgr.c:WAstrsave", "src/lib/strmgr.c:uStrsave"]}
{"id": "C47", "title": "String building keeps to its buffer and gives the concatenation", "statement": "Any sequence of start/append/prepend/truncate calls on a temporary string gives the string so described, cut off at the documented maximum, and never writes outside the buffer. (Violated for a string of exactly 130000 characters in a private buffer.)", "quantifier": "all sequences of calls, all strings", "why_tests_cant": "the overflow is at one exact length", "anchors": ["src/lib/strmgr.c:strtemp", "src/lib/strmgr.c:strappend", "src/lib/strmgr.c:charappend", "src/lib/strmgr.c:gen_strtemp", "src/lib/strmgr.c:gen_strappend", "src/lib/strmgr.c:gen_strprepend", "src/lib/strmgr.c:gen_strtruncate"]}
{"id": "C48", "title": "Numbers on the command line are read with their usual meaning", "statement": "Decimal, hexadecimal (0x) and octal (0) numbers that fit an int are read with their usual values and everything else is refused. (Violated: 0 is refused, hexadecimal letters count from 0, 8 and 9 are octal digits, g and h hexadecimal ones.)", "quantifier": "all strings", "why_tests_cant": "the set of strings is infinite", "anchors": ["src/lib/morestr.c:str2int"]}
{"id": "C49", "title": "Buffers without duplicates", "statement": "In a buffer without duplicates every item is stored once, keeps the index it got when it was first added, is found under that index, and adding it again reports that it is there.", "quantifier": "all sequences of push, find-or-insert, index and fetch operations", "why_tests_cant": "depends on table growth and the whole history", "anchors": ["src/lib/uniq_buf.c:push_uniq_buf", "src/lib/uniq_buf.c:find_insert_uniq_buf", "src/lib/uniq_buf.c:get_uniq_buf_index"]}
{"id": "C50", "title": "Conditionals on expressions denote the conditional", "statement": "The lazily evaluated conditional on bexprs denotes `if c then a else b`, also when its branches or its condition contain conditionals that are evaluated on the way. (Violated: the condition is kept in a global variable that a nested conditional overwrites.)", "quantifier": "all conditions and branches, all nestings", "why_tests_cant": "needs every nesting and evaluation order", "anchors": ["src/bin/fl/bexpr.c:bITE", "src/bin/fl/bexpr.c:g_be_ite"]}
{"id": "C51", "title": "Change detection on expressions notices every change", "statement": "In expression mode the simulator's comparison reports two expressions as different whenever they denote different functions, and an expression is never different from itself. (Violated: it compares signatures, which collide.)", "quantifier": "all pairs of expressions of all histories", "why_tests_cant": "needs signature collisions", "anchors": ["src/bin/fl/bexpr.c:BE_NEQ", "src/bin/fl/fsm.c:update_node"]}
{"id": "C52", "title": "Combinator code means what the term means", "statement": "The combinator code that the compiler makes from a term, by either of its two algorithms, has in every environment and applied to any arguments a value of the term, and refers to exactly the free variables of the term.", "quantifier": "all terms, environments and argument lists, in every model of the combinators", "why_tests_cant": "terms are unboundedly large and the algorithm changes at a size of 100000 nodes", "anchors": ["src/bin/fl/graph.c:Compile", "src/bin/fl/graph.c:abstract_rec", "src/bin/fl/graph.c:compile", "src/bin/fl/graph.c:create_free_tbl"]}
{"id": "C53", "title": "Definitions by pattern matching select the first clause that applies", "statement": "A function defined by clauses, applied to its arguments, gives the body of the first clause whose patterns match and whose guard is true, with the variables of the patterns bound to the parts of the arguments, and an error if there is none; recursive definitions call themselves; constructors make the values that their patterns take apart. (Violated for programs that use the names Arg1, Arg2, ... or _q_0, _q_1, ...)", "quantifier": "all definitions, arguments and environments", "why_tests_cant": "patterns nest without bound and the generated names depend on a session-wide counter", "anchors": ["src/bin/fl/graph.c:trarg", "src/bin/fl/graph.c:Find_new_free_var", "src/bin/fl/graph.c:Can_Fail_Pat_Match", "src/bin/fl/graph.c:Add_args", "src/bin/fl/graph.c:Make_TYPE", "src/bin/fl/language.y:fn_defs", "src/bin/fl/language.y:lhs_expr_list"]}
{"id": "C54", "title": "Evaluation of expressions agrees with lambda calculus for every assignment", "statement": "The results a session prints for its expressions are, for every assignment of the Boolean variables in them, what call-by-name lambda calculus says the expressions mean, with each name standing for its latest definition; sharing, updating in place and symbolic conditionals do not show. (Violated when a shared conditional is evaluated inside a branch of another one, when NONE is merged with another value, and by == on symbolic Booleans.)", "quantifier": "all sequences of definitions and expressions, all assignments of the Boolean variables, in every model of the language", "why_tests_cant": "programs and heaps are unbounded, and the violations need particular sharing between expressions", "anchors": ["src/bin/fl/graph.c:traverse_left", "src/bin/fl/graph.c:force", "src/bin/fl/graph.c:Gen_map2", "src/bin/fl/graph.c:g_b_ite", "src/bin/fl/graph.c:Eval", "src/bin/fl/symbol.c:Replace_name", "src/bin/fl/language.y:stmt"]}
{"id": "C55", "title": "A result is completely evaluated", "statement": "When the evaluation of an expression does not fail, every part of its result that is reached through lists and pairs is evaluated, and none of them is a failure. (Violated after an earlier evaluation failed in the middle of the same structure.)", "quantifier": "all sequences of definitions and expressions", "why_tests_cant": "the marks that say what is evaluated persist across a whole session, over structures of any size", "anchors": ["src/bin/fl/graph.c:force", "src/bin/fl/graph.c:traverse_left", "src/bin/fl/graph.h:MAKE_FORCED"]}
{"id": "C56", "title": "Tables are finite maps", "statement": "The operations on tables (create, list2tbl, insert, insertn, delete, clear, member, get, size, tbl2list) give the results of the same operations on finite maps whose keys are compared by value, for any number of tables; inserting a present key, deleting or getting an absent one, or using a table value that has been changed fails. (Violated when a table is shared by two values, by an insertn that fails half way, and for keys that hold reference variables or vectors with redundant sign bits.)", "quantifier": "all sequences of table operations, all keys and data, all hash functions", "why_tests_cant": "depends on collisions and growth over the whole history of a table and on sharing between values", "anchors": ["src/bin/fl/table.c:table_insert", "src/bin/fl/table.c:table_insertn", "src/bin/fl/table.c:table_delete", "src/bin/fl/table.c:table_get", "src/bin/fl/cache.c:G_rec_hash", "src/bin/fl/cache.c:G_rec_equ"]}
{"id": "C57", "title": "Principal types", "statement": "The type shown for an accepted expression has as its instances exactly the types of the expression under the typing rules of the language (monomorphic lambda, fresh instances of defined names, lists, type assertions); an expression is refused exactly when it has no type; type checking always ends and leaves the types of everything defined before unchanged.", "quantifier": "all expressions, all types of defined names and assertions, all numberings of type variables", "why_tests_cant": "unification and its undo log must be right for every order and sharing of bindings", "anchors": ["src/bin/fl/typecheck.c:TypeCheck", "src/bin/fl/typecheck.c:unify", "src/bin/fl/typecheck.c:build_node_type_struct", "src/bin/fl/typecheck.c:fresh_inst", "src/bin/fl/typecheck.c:pop_tc_context"]}
{"id": "C58", "title": "Overloaded names are resolved exactly", "statement": "In an expression with overloaded names the type checker finds whether no, exactly one or more than one choice of alternatives gives the expression a type. With none the expression is refused; with one it is used and the type shown is the principal type of the expression with these alternatives; with more the names become implicit arguments and the type shown is the principal one of the resulting function. (Violated when an alternative does not fit the type the checker gave to the name.)", "quantifier": "all expressions, all numbers of overloaded names and alternatives", "why_tests_cant": "the search backtracks over an exponential number of choices in one mutable store", "anchors": ["src/bin/fl/typecheck.c:nbr_succ_overload_res", "src/bin/fl/typecheck.c:TypeCheck", "src/bin/fl/typecheck.c:find_common_type_rec", "src/bin/fl/typecheck.c:Find_Overload_Choice", "src/bin/fl/symbol.c:AddToOpenOverloadDef"]}
{"id": "C59", "title": "A type declaration introduces a new type", "statement": "lettype (with andlettype) makes new types, different from all others. Its constructors get the types in the declaration, a group whose types are all declared is accepted and one that mentions an undeclared type is rejected, no declaration crashes the interpreter, and pattern matching takes out of a value what was put in, at the type at which it was put in. (Violated for redeclared names, names of built-in types and abbreviations, variables that are not parameters, types used before they are declared, and tbl without arguments.)", "quantifier": "all sessions of type declarations and abbreviations", "why_tests_cant": "types are completed in place, so the meaning of a declaration depends on all earlier ones, accepted or not", "anchors": ["src/bin/fl/typecheck.c:Get_Type", "src/bin/fl/typecheck.c:Fix_Types", "src/bin/fl/typecheck.c:Check_no_undef_types", "src/bin/fl/typecheck.c:new_concrete_type", "src/bin/fl/symbol.c:Add_Destructors", "src/bin/fl/language.y:new_type_decl"]}
{"id": "C60", "title": "A forward declaration fixes the type", "statement": "A definition for a forward-declared name is accepted exactly when its type is the declared one, up to the names of type variables; code checked against the declaration therefore never sees a more special or more general type.", "quantifier": "all declared and actual types", "why_tests_cant": "the comparison numbers type variables in mutable fields", "anchors": ["src/bin/fl/typecheck.c:Forward_Declare_Ok", "src/bin/fl/typecheck.c:Type_eq", "src/bin/fl/typecheck.c:annotate_star_cnt"]}
{"id": "C61", "title": "Types are printed faithfully", "statement": "The text of a type does not depend on what was printed before, and two types with the same text are the same up to the names of type variables. In particular the signature that read_t compares with the one in a file identifies the type that was written. (Violated: tuples in the first component of tuples are not marked, and the signature does not cover the types it mentions.)", "quantifier": "all types", "why_tests_cant": "injectivity of printing over all types", "anchors": ["src/bin/fl/typecheck.c:print_type_rec", "src/bin/fl/typecheck.c:Print_Type", "src/bin/fl/symbol.c:Get_tmp_type_string", "src/bin/fl/symbol.c:Add_Destructors"]}
{"id": "C62", "title": "Formatted printing writes each value in its field", "statement": "sprintf gives the literal text of the format and, for each directive, the text of its argument in the given base, with its sign, padded to the width on the side and with the character that the flags ask for; it fails when a value is wider than its field; printf prints the same text. (Violated for formats without arguments, unfinished or unknown directives, negative widths, %0b, and texts longer than 130000 characters.)", "quantifier": "all formats, flags, widths and argument values", "why_tests_cant": "combinations of flags, widths, bases, signs and lengths are unbounded", "anchors": ["src/bin/fl/io.c:Printf", "src/bin/fl/io.c:prs", "src/bin/fl/io.c:print_list", "src/bin/fl/io.h:PROCESS_PRINTF_PAT", "src/bin/fl/graph.c:Make_Printf_Primitive", "src/bin/fl/typecheck.c:Printf_arity", "src/lib/strmgr.c:strappend"]}
{"id": "C63", "title": "Scanning inverts printing", "statement": "What sprintf wrote with a format, sscanf reads back with the same format, and input that does not match the format is refused. (Violated for blank-padded fields, negative numbers written with %b, words shorter than their field; text that is no number is read as 0.)", "quantifier": "all formats and values", "why_tests_cant": "inversion for all values and all combinations of fields", "anchors": ["src/bin/fl/io.c:Sscanf", "src/bin/fl/io.c:in_range", "src/bin/fl/io.h:PROCESS_PRINTF_PAT"]}
{"id": "C64", "title": "A saved value is loaded as a copy", "statement": "write_T writes any value of a type to a file, and read_T makes a copy of it from that file: the same graph with sharing and cycles, the same numbers, strings, functions and references; values that cannot be saved are refused, and a file of another type is refused. (Violated for variables, for two nodes that are one reference, for numbers of more than 130000 digits, and for types with the first constructors of the type that was saved.)", "quantifier": "all graphs, with any sharing and cycles, all programs that load", "why_tests_cant": "graphs are unbounded, and cycles, sharing and order of the records interact", "anchors": ["src/bin/fl/io.c:Save_graph", "src/bin/fl/io.c:Load_graph", "src/bin/fl/io.c:can_be_saved", "src/bin/fl/serialize.c:write_g_ptr", "src/bin/fl/serialize.c:read_g_ptr", "src/bin/fl/serialize.c:write_g_rec", "src/bin/fl/serialize.c:read_g_rec", "src/bin/fl/symbol.c:Add_Destructors", "src/lib/uniq_buf.c:find_insert_uniq_buf"]}
{"id": "C65", "title": "Reclaiming of memory is not observable", "statement": "During any evaluation, with garbage collections at any points, every value that the program can still reach (through lists, functions, reference variables and caches) stays what it would be if memory were never reclaimed; new values never overlap with reachable ones; a collection returns exactly what cannot be reached; the reference counting never stops the program. (Violated when a value is printed with a user-installed print function.)", "quantifier": "all sequences of graph constructions, reductions, assignments, cache insertions and collections", "why_tests_cant": "histories are unbounded, sharing and cycles are arbitrary, and a wrong count shows up only long after it was made", "anchors": ["src/bin/fl/graph.c:dec_ref_cnt", "src/bin/fl/graph.c:refcnt_free_nd", "src/bin/fl/graph.c:Mark", "src/bin/fl/graph.c:Do_garbage_collect", "src/bin/fl/graph.c:sweep", "src/bin/fl/graph.c:traverse_left", "src/bin/fl/graph.c:Get_node", "src/bin/fl/graph.c:inc_refcnt_children", "src/bin/fl/graph.c:print_result_local", "src/bin/fl/graph.h:INC_REFCNT", "src/bin/fl/graph.h:OVERWRITE", "src/bin/fl/cache.c:Mark_G_Cache", "src/bin/fl/cache.c:Sweep_G_caches", "src/bin/fl/cache.c:Set_RefVar"]}
{"id": "C66", "title": "Builtin list functions are the textbook functions", "statement": "rev, length, append, flat, sitlist, butlast, last, lastn, butlastn, firstn, butfirstn, el, gather, separate, filter, split, find, find_first0, find_all, partition, setify, union, intersect, subtract, overlap, set_eq, assoc, rev_assoc, mem, loop and qsort give what the functions of these names mean on lists, for every list, element type and function argument; a failing or symbolic predicate gives a failure; the tables that assoc, rev_assoc, mem and el keep between calls never change a result, however calls and garbage collections are interleaved; qsort sorts, and a failing comparison makes it fail. (Violated: negative numbers for lastn/butlastn, numbers over 32 bits, firstn/el when the tail after the last element wanted fails, assoc on keys with reference cells that are updated, qsort with a comparison function that itself calls qsort.)", "quantifier": "all lists (also without end, where evaluated on demand), all functions and predicates, all sequences of calls and collections", "why_tests_cant": "the inputs are unbounded, the lookup tables make results depend on the history of calls, and nested use of qsort depends on global state", "anchors": ["src/bin/fl/list_ops.c:rev", "src/bin/fl/list_ops.c:lastn", "src/bin/fl/list_ops.c:firstn", "src/bin/fl/list_ops.c:assoc", "src/bin/fl/list_ops.c:mem", "src/bin/fl/list_ops.c:el", "src/bin/fl/list_ops.c:filter", "src/bin/fl/list_ops.c:partition", "src/bin/fl/list_ops.c:my_union", "src/bin/fl/list_ops.c:set_eq", "src/bin/fl/list_ops.c:separate", "src/bin/fl/list_ops.c:fl_qsort", "src/bin/fl/list_ops.c:g_cmp", "src/bin/fl/list_ops.c:List_GC"]}
{"id": "C67", "title": "gcmp is a total order on values", "statement": "The comparison function gcmp is negative, zero or positive exactly if its first argument is less than, equal to or greater than the second in one strict total order: integers by value, strings and lists lexicographically, tuples and constructor terms componentwise; so that sorting with it is canonical. (Violated for Booleans, Boolean expressions, files and format functions.)", "quantifier": "all pairs and triples of values of any size", "why_tests_cant": "the values are unbounded, and totality and transitivity are about all pairs and triples", "anchors": ["src/bin/fl/list_ops.c:Graph_cmp", "src/bin/fl/list_ops.c:gcmp", "src/bin/fl/arb_prec.c:Arbi_cmp"]}
{"id": "C68", "title": "A compiled circuit has the behaviours its update functions describe", "statement": "When a leaf of a pexlif is turned into an fsm, the behaviours of its declared signals that the compiled circuit allows are exactly those in which every update function holds at all times: the left side has the value of the word expression on the right side (one time unit earlier for phase delays). Properly sized update functions are accepted; the compiled components are well-formed and drive no signal twice. (Violated for sized uses of memory reads, delayed predicates, and slice and update indices out of range.)", "quantifier": "all word expressions of any size and nesting, all update functions, all behaviours over unbounded time", "why_tests_cant": "expressions are unbounded and the claim is about all infinite behaviours in both directions", "anchors": ["src/bin/fl/fsm.c:compile_expr", "src/bin/fl/fsm.c:get_wexpr_size", "src/bin/fl/fsm.c:make_input_arg", "src/bin/fl/fsm.c:get_lhs_indices", "src/bin/fl/fsm.c:traverse_pexlif", "src/bin/fl/fsm.c:mk_vec_name", "src/bin/fl/fsm.c:is_binary_wexpr", "src/bin/fl/fsm.c:is_relation_wexpr", "src/bin/fl/pexlif.c:is_W_MEM_READ", "src/bin/fl/preamble.fl:W_IDELAY"]}
{"id": "C69", "title": "Components are ranked so that each is simulated after its drivers", "statement": "Every component gets a rank between 1 and the highest rank the fsm reports, and a component without delay gets a higher rank than every component that reads one of its outputs, so that the simulator, working from high to low ranks, relaxes a consistent circuit in one sweep and its verdicts hold of the update functions. (Violated for paths of more than 1000 components.)", "quantifier": "all circuits without zero-delay loops, of any size and shape", "why_tests_cant": "depends on all paths through circuits of any size; the depth limit is only met by very deep circuits", "anchors": ["src/bin/fl/fsm.c:rank_order", "src/bin/fl/fsm.c:assign_rank", "src/bin/fl/fsm.c:no_fanout", "src/bin/fl/fsm.c:do_rank_order"]}
{"id": "C70", "title": "A vector name stands for the bits it writes, in the order it writes them", "statement": "md_expand_vector of a name lists the names got by choosing one index in each bracketed group: all of them, nothing else, the first group varying slowest and each range running from its first to its last index. Every listed name expands to itself, the names are distinct unless an index is repeated, md_size is their number, and a name that has been taken apart and written again is read the same way. Escaped identifiers and brackets that hold no index are text. (Violated: the size of the constant 0b; indices that do not fit into an int.)", "quantifier": "all strings, any number of index groups and ranges, all indices", "why_tests_cant": "names are unbounded strings with nested bracket syntax; the claim relates reading, writing and counting for all of them", "anchors": ["src/bin/fl/voss_strings.c:Split_vector_name", "src/bin/fl/voss_strings.c:is_valid_index_or_range", "src/bin/fl/voss_strings.c:merge_indices", "src/bin/fl/voss_strings.c:Expand_vector", "src/bin/fl/voss_strings.c:expand_constant", "src/bin/fl/voss_strings.c:Get_Vector_Size", "src/bin/fl/voss_strings.c:vec_size", "src/bin/fl/voss_strings.c:show_non_contig_vector", "src/bin/fl/voss_strings.c:md_expand_vector", "src/bin/fl/voss_strings.c:md_size", "src/bin/fl/voss_strings.c:md_split_vector"]}
{"id": "C71", "title": "Merging names keeps the bits", "statement": "The bits of the names that md_merge_vectors returns are the bits of its arguments, each as often. If no name has more than one index group, they are in the same order. Merging ends. (Violated: the order for names with several groups, names with asterisks, names beginning with 0b, indices with ten digits.)", "quantifier": "all lists of names of any length, any mix of vectors and constants", "why_tests_cant": "neighbouring names are merged repeatedly until nothing changes; the result depends on the whole history", "anchors": ["src/bin/fl/voss_strings.c:gen_merge_vectors", "src/bin/fl/voss_strings.c:Get_vector_signature", "src/bin/fl/voss_strings.c:same_range", "src/bin/fl/voss_strings.c:is_const", "src/bin/fl/voss_strings.c:merge_vectors_fl", "src/bin/fl/voss_strings.c:md_merge_vectors", "src/bin/fl/voss_strings.c:show_merge_list"]}
{"id": "C72", "title": "Extracting vectors keeps the set of bits", "statement": "md_extract_vectors returns names with exactly the bits of its arguments, each once, whatever order equal names are sorted in; it always ends. (Violated: gaps between ranges written from the lowest index up are filled; bits can occur twice.)", "quantifier": "all lists of names, all orders the sorting function may choose", "why_tests_cant": "ranges are compressed repeatedly; missing or added bits show only for particular combinations of ranges", "anchors": ["src/bin/fl/voss_strings.c:gen_extract_vectors", "src/bin/fl/voss_strings.c:make_range_canonical", "src/bin/fl/voss_strings.c:compress_ranges", "src/bin/fl/voss_strings.c:nn_cmp", "src/bin/fl/voss_strings.c:extract_vectors_fl", "src/bin/fl/voss_strings.c:md_extract_vectors"]}
{"id": "C73", "title": "Names and nodes of a circuit correspond", "statement": "In a compiled circuit every node has a name under which it is found again, every bit of a declared signal is found under its name and the node it is found at is called by that name, and different bits are different nodes. The bits of a signal have consecutive nodes in the order in which the name writes them; a vector stands for the nodes of its bits in order, also when it is spread over several declarations; a formal of an instance stands for the nodes of its actuals; constants are digits; a slice is a slice. (Violated: index groups after the first written from the lower to the higher index; bits of formals; escaped names in instances; names of several bits given where a bit is expected.)", "quantifier": "all circuits: any number of signals, instances, index groups and ranges; all names of vectors", "why_tests_cant": "node numbers depend on all declarations before; strides multiply over any number of groups", "anchors": ["src/bin/fl/fsm.c:declare_vector", "src/bin/fl/fsm.c:find_node_index", "src/bin/fl/fsm.c:idx2name", "src/bin/fl/fsm.c:get_real_name", "src/bin/fl/fsm.c:vec2indices", "src/bin/fl/fsm.c:name2idx", "src/bin/fl/fsm.c:map_vector", "src/bin/fl/fsm.c:map_node", "src/bin/fl/fsm.c:get_stride", "src/bin/fl/fsm.c:is_full_range", "src/bin/fl/fsm.c:ilist_sel", "src/bin/fl/fsm.c:append_range", "src/bin/fl/fsm.c:translate_range"]}
{"id": "C74", "title": "String functions compute what their names say", "statement": "strlen, strcmp, strstr, str_is_prefix, str_is_suffix, str_is_substr, str_split, string_lastn, string_butlastn, string_butfirstn, substr, trim, gen_trim, str_cluster, implode and tcl2list are, for all strings and numbers, the functions their documentation describes: first occurrences, pieces between separators, first and last characters, strings without surrounding white space, parts of equal size, concatenation, the elements of a Tcl list. A request that has no answer fails with a message. (Violated: negative numbers, sizes of 0, an empty suffix, a backslash at the end, escapes outside braces.)", "quantifier": "all strings; all integers; all lists of strings", "why_tests_cant": "positions, overlaps of separators and boundary cases are unbounded; the failing cases read memory and need not crash", "anchors": ["src/bin/fl/voss_strings.c:str_is_prefix", "src/bin/fl/voss_strings.c:str_is_suffix", "src/bin/fl/voss_strings.c:str_is_substr", "src/bin/fl/voss_strings.c:str_split", "src/bin/fl/voss_strings.c:string_lastn", "src/bin/fl/voss_strings.c:string_butlastn", "src/bin/fl/voss_strings.c:string_butfirstn", "src/bin/fl/voss_strings.c:string_strstr", "src/bin/fl/voss_strings.c:string_substr", "src/bin/fl/voss_strings.c:string_trim", "src/bin/fl/voss_strings.c:string_gen_trim", "src/bin/fl/voss_strings.c:string_str_cluster", "src/bin/fl/voss_strings.c:implode", "src/bin/fl/voss_strings.c:tcl2list", "src/bin/fl/voss_strings.c:do_strlen", "src/bin/fl/voss_strings.c:do_strcmp"]}
{"id": "C75", "title": "Regular expressions are compiled or taken from the cache", "statement": "str_reg_match and str_reg_extract use, for every pattern and every history of earlier patterns, what the C library makes of the pattern; illegal patterns are reported. (Violated: the first use of a regular expression writes outside the cache.)", "quantifier": "all patterns; all histories of calls", "why_tests_cant": "the result depends on ten cached patterns and their ages", "anchors": ["src/bin/fl/voss_strings.c:compile_regexp", "src/bin/fl/voss_strings.c:str_reg_match", "src/bin/fl/voss_strings.c:str_reg_extract"]}
{"id": "C76", "title": "Unfolding an instance keeps the connections", "statement": "unfold_pexlif replaces an instance by the instances inside it. Every bit of every pin of these is connected as before: to the wire to which the pin of the unfolded instance was connected, or to the wire inside, under a new name that no other wire has. Nothing else changes; requests for an instance that does not exist fail. (Violated: wires are swapped when the bits of a matrix are connected by columns; escaped names of wires inside; pins connected to nothing.)", "quantifier": "all circuits; all instances; all names of wires", "why_tests_cant": "the new names and the regrouping of bits into vectors depend on all other names in the circuit", "anchors": ["src/bin/fl/pexlif.c:unfold_pexlif", "src/bin/fl/pexlif.c:unfold_pexlif_fn", "src/bin/fl/pexlif.c:mk_formal_actuals_substitution", "src/bin/fl/pexlif.c:subst_formal", "src/bin/fl/pexlif.c:subst_fa_list", "src/bin/fl/voss_strings.c:get_base_name", "src/bin/fl/voss_strings.c:VDB_Insert_vector", "src/bin/fl/voss_strings.c:show_contig_vectors"]}
{"id": "C77", "title": "Adjacent instances are those connected by a wire", "statement": "get_top_adjacencies of a circuit has a pair of instance numbers just if the first instance drives a bit that the second one reads, where number 0 stands for the inputs and outputs of the circuit. (Violated: ranges written from the lowest index up; groups of several ranges.)", "quantifier": "all circuits", "why_tests_cant": "whether two vector names have a bit in common depends on unbounded indices", "anchors": ["src/bin/fl/pexlif.c:get_top_adjacencies", "src/bin/fl/pexlif.c:mk_adj_tables", "src/bin/fl/voss_strings.c:Check_vector_overlap", "src/bin/fl/voss_strings.c:Check_range_overlap"]}
{"id": "C78", "title": "Folding instances into one keeps the connections", "statement": "fold_pexlif moves the chosen instances into one new instance, whose inputs are the wires read inside and driven outside, whose outputs are those driven inside and read outside, and whose internals are the remaining wires between the moved instances; no connection is cut. (Violated: a wire that is also used outside is no longer declared there; bits are declared twice when a part of a vector is used; attributes are dropped; wires that nobody drives are not declared.)", "quantifier": "all circuits; all sets of instances", "why_tests_cant": "depends on all pairs of names in the circuit", "anchors": ["src/bin/fl/pexlif.c:fold_pexlif", "src/bin/fl/pexlif.c:fold_pexlif_fn"]}
{"id": "C79", "title": "Signatures are SHA-256", "statement": "The hash of a text that is printed piece by piece is SHA-256 of the whole text as the standard defines it, in sixty-four hexadecimal digits, whatever the pieces and whatever an earlier use has left in the record. (Violated for pieces of more than 4095 characters: they are cut off.)", "quantifier": "all texts of less than 2^64 bits; all ways to cut them into pieces; all contents of the buffer", "why_tests_cant": "padding and counters depend on the length; the program computes with 64 bits where the standard has 32", "anchors": ["src/bin/fl/sha256.c:SHA256_printf", "src/bin/fl/sha256.c:Get_SHA256_hash", "src/bin/fl/sha256.c:SHA256_update", "src/bin/fl/sha256.c:SHA256_final", "src/bin/fl/sha256.c:sha256_compress"]}
{"id": "C80", "title": "Equal signatures mean equal values", "statement": "Two values with the same sha256_signature are the same, up to the addresses of their nodes, unless SHA-256 collides on their texts; and the signature depends on nothing but the value. (Violated: strings with newlines; strings that differ after 4092 characters; contents of references; equal values of which one shares parts have different signatures; conjunctions of Boolean expressions are undefined behaviour.)", "quantifier": "all values, finite or cyclic; all addresses", "why_tests_cant": "the text must be shown to determine the graph", "anchors": ["src/bin/fl/sha256.c:sha256_signature", "src/bin/fl/sha256.c:Get_SHA256_signature", "src/bin/fl/sha256.c:SHA256_traverse_graph", "src/bin/fl/bexpr.c:SHA256_bexpr"]}
{"id": "C81", "title": "A search for a circuit finds every occurrence once", "statement": "The calls of internal_search_step on a search for a needle in a haystack answer with every occurrence of the needle exactly once, in lexicographic order, and then with the empty list; every call ends. An occurrence assigns to every instance of the needle a different instance of the haystack with the same fingerprint or signature, so that instances with a wire between them keep it. (Violated: fingerprints beyond int are undefined behaviour; a needle without wires fails; wires have no direction.)", "quantifier": "all circuits; all numbers of calls", "why_tests_cant": "a backtracking search with undo that is suspended between calls; a missed or repeated occurrence needs a particular shape of both circuits", "anchors": ["src/bin/fl/iso.c:internal_search_create_fn", "src/bin/fl/iso.c:internal_search_step_fn", "src/bin/fl/iso.c:lazy_search", "src/bin/fl/iso.c:trim", "src/bin/fl/iso.c:undo_trim", "src/bin/fl/iso.c:pick", "src/bin/fl/iso.c:undo_pick", "src/bin/fl/iso.c:is_match", "src/bin/fl/iso.c:mk_adj", "src/bin/fl/iso.c:mk_iso_list", "src/bin/fl/iso.c:mk_iso_matrix", "src/bin/fl/iso.c:trim_matrix"]}
{"id": "C82", "title": "Fingerprints depend on the structure of a circuit only", "statement": "The fingerprint of an instance (fp_pinst, and the attribute FP that mk_pinst stores) does not change if signals, constants, predicates and slices are renamed, ports, internal signals, functions or instances are listed in another order, or arguments of ==, +, &, * and | are exchanged; for every table of factors. A stored fingerprint is read as the number it was. (Violated: different functions may share a fingerprint for every table of factors, as a NAND gate and a NOR gate do.)", "quantifier": "all instances; all expressions; all tables of factors; all fingerprints", "why_tests_cant": "a hash over a recursive type that must agree on all pairs of reordered circuits", "anchors": ["src/bin/fl/pexlif.c:fp_pinst", "src/bin/fl/pexlif.c:mk_pinst", "src/bin/fl/pexlif.c:compute_fp_pinst", "src/bin/fl/pexlif.c:fp_content", "src/bin/fl/pexlif.c:fp_formal", "src/bin/fl/pexlif.c:fp_internal", "src/bin/fl/pexlif.c:fp_fn", "src/bin/fl/pexlif.c:fp_w", "src/bin/fl/pexlif.c:fp_w_rec", "src/bin/fl/pexlif.c:find_signature", "src/bin/fl/pexlif.c:pm_val"]}
{"id": "C83", "title": "The SHA-256 signature of an instance determines it", "statement": "The signature of an instance (sha_pinst, and the attribute SHA that mk_pinst stores) does not depend on the order in which functions or instances are listed. Two hierarchies, all of whose instances carry the signatures that the program computes, with the same signature at the top are the same, but for that order, or two instances in them are a collision of SHA-256. (Violated: names with spaces or with `]:` are confused with lists of names; an empty leaf and an empty hierarchy have the same signature.)", "quantifier": "all instances; all hierarchies of any depth; all names", "why_tests_cant": "a claim on all pairs of circuits of any size, and on the injectivity of a text format", "anchors": ["src/bin/fl/pexlif.c:compute_sha_pinst", "src/bin/fl/pexlif.c:sha_pinst", "src/bin/fl/pexlif.c:mk_pinst", "src/bin/fl/pexlif.c:signature_rec_cmp", "src/bin/fl/pexlif.c:find_sha", "src/bin/fl/pexlif.c:g_cmp", "src/bin/fl/sha256.c:SHA256_acyclic_type", "src/bin/fl/list_ops.c:Graph_cmp"]}
{"id": "C84", "title": "Instances are made with their assertions declared and their own signatures", "statement": "Making an instance (mk_pinst) of instances fails exactly if two of them state the same assertion. Otherwise each assertion inside that is neither an internal signal nor an output becomes an internal signal, once, and nothing else does; ports, name, contents and the attributes other than FP and SHA are kept in order; FP and SHA are there once and are the signatures of the instance that is made; making it again from its parts changes nothing; the order of the instances does not matter for the internals or the fingerprint. (Violated: the SHA depends on the order of instances whose assertions share a hash bucket; an assertion that is a bit of a declared vector is declared again.)", "quantifier": "all instances; all lists of instances and attributes; all signatures", "why_tests_cant": "the outcome depends on hash buckets and on all combinations of names", "anchors": ["src/bin/fl/pexlif.c:mk_pinst", "src/bin/fl/pexlif.c:is_assertion", "src/bin/fl/pexlif.c:add_assertion_declarations", "src/bin/fl/pexlif.c:is_signature", "src/bin/fl/pexlif.c:strip_signatures", "src/bin/fl/pexlif.c:compute_fp_pinst", "src/bin/fl/pexlif.c:compute_sha_pinst", "src/lib/hash.c:str_hash", "src/lib/hash.c:scan_hash"]}
{"id": "C85", "title": "Linear constraints are decided exactly", "statement": "LP says whether rational values of the variables meet all of the given linear constraints (=, <>, <, >, <=, >=), and LPsol gives such values, or the empty list if there are none; the arithmetic is exact; rows of different lengths are a failure. (Violated: values of variables that may be negative are wrong; values for strict inequalities without bound are on the boundary; <> is accepted wrongly; a redundant equation leads to wrong answers or ends the program; the choice of pivots may go round in a circle for ever.)", "quantifier": "all systems of constraints of any size, all numbers of steps", "why_tests_cant": "the answer depends on the whole course of the simplex method, on degenerate and redundant systems of every size", "anchors": ["src/bin/fl/lp.c:LP_feasible", "src/bin/fl/lp.c:LPfeasible", "src/bin/fl/lp.c:lp_feasible", "src/bin/fl/lp.c:LP_solution", "src/bin/fl/lp.c:LPsol", "src/bin/fl/lp.c:lp_solution", "src/bin/fl/lp.c:Add_LP_row", "src/bin/fl/lp.c:add_row", "src/bin/fl/lp.c:in_basis", "src/bin/fl/lp.c:find_basis", "src/bin/fl/lp.c:diagonalize", "src/bin/fl/lp.c:pivot", "src/bin/fl/lp.c:simplex", "src/bin/fl/lp.c:find_non_zero", "src/bin/fl/lp.c:drive_out", "src/bin/fl/lp.c:FindBfs", "src/bin/fl/lp.c:bfs", "src/bin/fl/lp.c:find_slack", "src/bin/fl/lp.c:strict_ineq", "src/bin/fl/lp.c:zero_column", "src/bin/fl/lp.c:addNE", "src/bin/fl/lp.c:is_feasible", "src/bin/fl/lp.c:solveStrictIneq", "src/bin/fl/lp.c:standard1", "src/bin/fl/lp.c:standard2", "src/bin/fl/lp.c:standard3", "src/bin/fl/lp.c:standard4", "src/bin/fl/lp.c:eliminate_zeros", "src/bin/fl/lp.c:lp_StandardTableau", "src/bin/fl/lp.c:rat_return", "src/bin/fl/lp.c:rat_add", "src/bin/fl/lp.c:rat_sub", "src/bin/fl/lp.c:rat_mlt", "src/bin/fl/lp.c:rat_div", "src/bin/fl/lp.c:rat_cmp", "src/bin/fl/lp.c:rat_neg"]}
{"id": "C86", "title": "A parametric representation takes exactly the values that satisfy the condition", "statement": "param gives, for a condition that can be satisfied, a substitution of the variables of the condition by functions such that the condition holds whatever the new values are and every way of satisfying it is obtained; fparam does so for some variables with the others as constants; a constrained vector takes exactly the values that its predicate allows; the renaming to next-state variables and back keeps functions. (Violated by fparam when the name of a new variable is already in use: solutions are lost, or the result does not satisfy the condition.)", "quantifier": "all Boolean functions over all variables in every variable order", "why_tests_cant": "the set of all solutions of an arbitrary function has to be compared with the range of the substitution", "anchors": ["src/bin/fl/preamble.fl:param", "src/bin/fl/preamble.fl:parametric", "src/bin/fl/preamble.fl:fparam", "src/bin/fl/preamble.fl:fparam_rec", "src/bin/fl/preamble.fl:bdd_current2next", "src/bin/fl/preamble.fl:bdd_next2current", "src/bin/fl/preamble.fl:Quant_thereis", "src/bin/fl/preamble.fl:bv_constrained_variable"]}
{"id": "C87", "title": "Examples satisfy the condition and are complete", "statement": "forcing lists exactly the variables that have the same value in all solutions; example and full_example give values that satisfy a condition that can be satisfied, preferring the requested value where there is a choice; enumerate_examples and bv_examples list different solutions only, and all of them unless they say that there are more. (Violated: full_example gives an example for a condition that has none; enumerate_examples says \"...\" when all are listed; bv_examples prints one more than asked for.)", "quantifier": "all Boolean functions, bit-vectors, lists of variables and limits", "why_tests_cant": "completeness of a listing is a statement about all assignments of any number of variables", "anchors": ["src/bin/fl/preamble.fl:forcing", "src/bin/fl/preamble.fl:example", "src/bin/fl/preamble.fl:full_example", "src/bin/fl/preamble.fl:enumerate_examples", "src/bin/fl/preamble.fl:select", "src/bin/fl/preamble.fl:bv_examples_n", "src/bin/fl/preamble.fl:bv_examples1"]}
{"id": "C88", "title": "The extremes of a symbolic bit-vector are its smallest and largest value", "statement": "bv_range gives the smallest and the largest number that a bit-vector stands for; so do bv_min and bv_max for bit-vectors that do not change their sign; mutex says for which values exactly one bit is set. (Violated: bv_max and bv_min fail for every bit-vector that can be negative and non-negative; mutex is false for a vector with only its first bit set.)", "quantifier": "all bit-vectors over all variables", "why_tests_cant": "A bit-vector over n variables stands for 2^n numbers, and what the evaluator does at a symbolic conditional depends on the conditions around it", "anchors": ["src/bin/fl/preamble.fl:bv_max", "src/bin/fl/preamble.fl:bv_min", "src/bin/fl/preamble.fl:bv_range", "src/bin/fl/preamble.fl:mutex", "src/bin/fl/graph.c:g_b_ite", "src/bin/fl/bv.c:bv_gmap2_fn"]}
{"id": "C89", "title": "Powers, symbolic shifts and greatest common divisors of bit-vectors are those of the numbers", "statement": "bv_pow, bv_shl, bv_shr and bv_ashr with a symbolic amount, and bv_gcd terminate for all bit-vectors, and for every value of the variables give the power, the shifted number, and up to its sign the greatest common divisor; bv_reduce divides by the greatest common divisor of all values. (Violated: bv_reduce can divide by a number that does not divide all values, fails on constants, and changes the sign of negative vectors; bev_pow never terminates.)", "quantifier": "all bit-vectors over all variables", "why_tests_cant": "A bit-vector over n variables stands for 2^n numbers, and what the evaluator does at a symbolic conditional depends on the conditions around it", "anchors": ["src/bin/fl/preamble.fl:bv_pow", "src/bin/fl/preamble.fl:bv_shl", "src/bin/fl/preamble.fl:bv_shr", "src/bin/fl/preamble.fl:bv_ashr_bvbv", "src/bin/fl/preamble.fl:bv_gcd", "src/bin/fl/preamble.fl:bv_reduce", "src/bin/fl/preamble.fl:bev_pow", "src/bin/fl/graph.c:cur_eval_cond"]}
{"id": "C90", "title": "Parallel evaluation gives each expression its own result, whatever the order in which the processes end", "statement": "para_eval ends if all its processes end; it gives the value of every expression at the place of the expression, and NONE for those whose process failed; it never runs more than max_processes at a time and starts every expression once; with single_winner it gives the value of one expression that succeeded, at its place, and NONE for the others. (Violated: with single_winner the value can be put at the place of another expression; the call fails if no process succeeds; a running process can be taken for a dead one because a status is read that was not set; with max_processes 0 it never ends.)", "quantifier": "all numbers of expressions and processes, all times at which the processes end, all outcomes", "why_tests_cant": "The order in which processes end is not under the control of a test", "anchors": ["src/bin/fl/preamble.fl:para_eval", "src/bin/fl/preamble.fl:get_status", "src/bin/fl/preamble.fl:list_grab", "src/bin/fl/preamble.fl:spawn_fl_eval", "src/bin/fl/system.c:get_process_exit_status", "src/bin/fl/list_ops.c:find_first0"]}
{"id": "C91", "title": "The integer functions of the preamble compute what they are named after", "statement": "log2 is the logarithm rounded down; ** is the power; bl2int and int2bl convert lists of bits in two's complement; sbits_needed, ubits_needed and nearest_power_of_2 give the smallest widths and powers; random gives every number of its range with the same probability and no other; sets of integers behave like sets; primes are the primes, factor gives the prime factorisation, factorial and choose are those of mathematics. (Violated: ** on bit-vectors never terminates if the exponent can be negative; int2bl silently gives another number for numbers that need one bit more.)", "quantifier": "all integers and bit-vectors, all sets, all sequences of random numbers", "why_tests_cant": "Integers have no bound, and fairness is about all results of the generator", "anchors": ["src/bin/fl/preamble.fl:log2", "src/bin/fl/preamble.fl:ipow", "src/bin/fl/preamble.fl:bvpow", "src/bin/fl/preamble.fl:bl2int", "src/bin/fl/preamble.fl:int2bl", "src/bin/fl/preamble.fl:sbits_needed", "src/bin/fl/preamble.fl:ubits_needed", "src/bin/fl/preamble.fl:nearest_power_of_2", "src/bin/fl/preamble.fl:random", "src/bin/fl/preamble.fl:set2iset", "src/bin/fl/preamble.fl:iset2set", "src/bin/fl/preamble.fl:imem", "src/bin/fl/preamble.fl:iunion", "src/bin/fl/preamble.fl:iintersect", "src/bin/fl/preamble.fl:isubtract", "src/bin/fl/preamble.fl:ipop_cnt", "src/bin/fl/preamble.fl:primes", "src/bin/fl/preamble.fl:factor", "src/bin/fl/preamble.fl:factorial", "src/bin/fl/preamble.fl:choose"]}
{"id": "C92", "title": "Early quantification gives the existential quantification of the conjunction", "statement": "early_quant_thereis qvars fns always ends without failing; the conjunction of its results is the existential quantification over qvars of the conjunction of fns, and no result depends on a quantified variable.", "quantifier": "all lists of functions (less than 2^60), all lists of variables, with or without repetitions, all variable orders", "why_tests_cant": "Which functions are merged in which order depends on the counts of shared variables; a wrong count anywhere quantifies a variable out of one conjunct while another still uses it", "anchors": ["src/bin/fl/preamble.fl:early_quant_thereis", "src/bin/fl/preamble.fl:early_quant_thereis_preamble", "src/bin/fl/preamble.fl:find_smallest", "src/bin/fl/preamble.fl:merge_funs", "src/bin/fl/preamble.fl:mk_info"]}
{"id": "C93", "title": "Rational numbers are computed exactly", "statement": "Sums, differences, products and quotients of rationals are exact and in lowest terms; equality of rationals is equality of numbers; floor and round are exact; str2rat reads decimal numbers, also with a repeated part, exactly and refuses other text. (Violated: dividing by a negative number gives a second form of the same number, which = says is different; division by 0 gives 1/0; str2rat \"-3\" is 3; other text is read as some number.)", "quantifier": "all rationals, all strings of digits", "why_tests_cant": "Numbers and strings have no bound; a repeated part stands for infinitely many digits", "anchors": ["src/vosslib/rationals.fl:mk_rat", "src/vosslib/rationals.fl:str2rat", "src/vosslib/rationals.fl:floor", "src/vosslib/rationals.fl:round", "src/vosslib/rationals.fl:'+'", "src/vosslib/rationals.fl:'-'", "src/vosslib/rationals.fl:'*'", "src/vosslib/rationals.fl:'/'"]}
{"id": "C94", "title": "Arithmetic on numbers in unary representation is right", "statement": "num2bv and bin2unary give the unary representation of a number, also for symbolic bits, and value gives it back; add, subtract, increment and decrement are the operations of integers, with no bit set when the result has no representation; the comparisons say how the numbers compare; lists of different length are refused. (Violated: all comparisons, negative numbers in num2bv, and value of lists that are no representation.)", "quantifier": "all sizes, all symbolic numbers, all values of their variables", "why_tests_cant": "Bits are symbolic functions of unboundedly many variables", "anchors": ["src/vosslib/unary.fl:ite_l", "src/vosslib/unary.fl:num2bv", "src/vosslib/unary.fl:bin2unary", "src/vosslib/unary.fl:value", "src/vosslib/unary.fl:list_prefix", "src/vosslib/unary.fl:list_suffix", "src/vosslib/unary.fl:add", "src/vosslib/unary.fl:increment", "src/vosslib/unary.fl:decrement", "src/vosslib/unary.fl:subtract", "src/vosslib/unary.fl:greater", "src/vosslib/unary.fl:equal", "src/vosslib/unary.fl:geq", "src/vosslib/unary.fl:less", "src/vosslib/unary.fl:leq", "src/vosslib/unary.fl:bitwise"]}
{"id": "C95", "title": "Bit-vectors of expressions compute with the right numbers", "statement": "For bit-vectors of and-inverter expressions of any widths, the arithmetic, bitwise and comparison functions, the conditional IF THEN ELSE, negation and abs have, under every assignment of the variables, the result of the corresponding function of integers on the values; int2bev and bev2int convert exactly, bev2int fails on symbolic vectors; shifting right is floor division by a power of two; = says whether two bit-vectors are equal. (Violated: bev_ashr by at least the number of bits gives a bit-vector without bits, which everything else reads out of bounds; = gives false for equal functions built differently.)", "quantifier": "all widths, all expressions, all assignments, all integers", "why_tests_cant": "Expressions range over unboundedly many variables, widths have no bound", "anchors": ["src/bin/fl/bev.c:bev_add", "src/bin/fl/bev.c:bev_sub", "src/bin/fl/bev.c:bev_mul", "src/bin/fl/bev.c:signed_bevdiv", "src/bin/fl/bev.c:bev_ashr", "src/bin/fl/bev.c:bev_less", "src/bin/fl/bev.c:bev_eq_list", "src/bin/fl/bev.c:bev_eq_fn", "src/bin/fl/bev.c:bev2int", "src/bin/fl/bev.c:int2bev", "src/bin/fl/bev.c:bev_AND", "src/bin/fl/bev.c:bev_NOT", "src/bin/fl/bev.c:bev_ZX", "src/bin/fl/preamble.fl:bevTHEN", "src/bin/fl/preamble.fl:bevabs", "src/bin/fl/preamble.fl:bev_neg", "src/bin/fl/preamble.fl:bev_unary_minus", "src/bin/fl/preamble.fl:bexpr2bdd_bev"]}
{"id": "C96", "title": "The bit-vectors of fixed size of the library compute modulo their size", "statement": "For lists of Boolean functions of the same length: '+', '-', '*' and negation are the operations modulo 2^n under every assignment (signed and unsigned), the comparisons compare signed numbers, the bitwise functions work bit by bit, abs is the absolute value, the multiplexer chooses, int2fbv gives the vector of every number that fits and refuses all others, fbv2int reads constants back and refuses vectors that depend on variables, '>>' and '<<' shift by symbolic counts, '/' and '%' divide, and vectors of different sizes are refused. (Violated: '|>>' shifts every negative number one place too far; '/' is neither signed nor unsigned division for operands with the top bit set; vectors of fewer than three bits cannot be shifted; '!=' and '<=' accept different sizes.)", "quantifier": "all sizes, all Boolean functions, all assignments, all integers", "why_tests_cant": "Sizes and numbers of variables have no bound, and every assignment counts", "anchors": ["src/vosslib/gen_arithm.fl:int2fbv", "src/vosslib/gen_arithm.fl:fbv2int", "src/vosslib/gen_arithm.fl:fbvadd", "src/vosslib/gen_arithm.fl:fbvsub", "src/vosslib/gen_arithm.fl:fbvnegate", "src/vosslib/gen_arithm.fl:fbvmult", "src/vosslib/gen_arithm.fl:fbv_const_mult", "src/vosslib/gen_arithm.fl:fbvless", "src/vosslib/gen_arithm.fl:fbvleq", "src/vosslib/gen_arithm.fl:fbveq", "src/vosslib/gen_arithm.fl:fbvneq", "src/vosslib/gen_arithm.fl:fbvMUX", "src/vosslib/gen_arithm.fl:fbv_is_zero", "src/vosslib/gen_arithm.fl:fixed_ext_bvdiv", "src/vosslib/gen_arithm.fl:fbvdiv", "src/vosslib/gen_arithm.fl:fbvmod", "src/vosslib/gen_arithm.fl:fbvashr", "src/vosslib/gen_arithm.fl:fbvshr", "src/vosslib/gen_arithm.fl:fbvshl", "src/vosslib/gen_arithm.fl:fbvgAND", "src/vosslib/gen_arithm.fl:abs"]}
{"id": "C97", "title": "The bit-vectors of any size of the library compute exactly", "statement": "For lists of Boolean functions of any lengths: ''+'', ''-'', negation, the comparisons, the bitwise functions and the multiplexer give the exact result in two's complement under every assignment, results repeat no sign bit, int2dbv gives the shortest vector of every number and dbv2int reads it back, ''*'', ''/'', ''%'' and the shifts compute product, quotient, remainder and shifted number. (Violated: ''*'' and ''/'' fail for vectors of symbolic sign whose negation has another length; ''/'' gives 0 for -8 and 5; ''%'' has the wrong sign for negative numbers; ''<<'' does not grow; ''|>>'' extends with zeros; nat2dbv has no sign bit.)", "quantifier": "all sizes, all Boolean functions, all assignments, all integers", "why_tests_cant": "Sizes and numbers of variables have no bound, and every assignment counts", "anchors": ["src/vosslib/gen_arithm.fl:bv_trim", "src/vosslib/gen_arithm.fl:int2dbv", "src/vosslib/gen_arithm.fl:nat2dbv", "src/vosslib/gen_arithm.fl:dbv2int", "src/vosslib/gen_arithm.fl:dbvadd", "src/vosslib/gen_arithm.fl:dbvsub", "src/vosslib/gen_arithm.fl:dbvnegate", "src/vosslib/gen_arithm.fl:dbvmult", "src/vosslib/gen_arithm.fl:dbvless", "src/vosslib/gen_arithm.fl:dbvleq", "src/vosslib/gen_arithm.fl:dbveq", "src/vosslib/gen_arithm.fl:dbvMUX", "src/vosslib/gen_arithm.fl:get_sign_abs", "src/vosslib/gen_arithm.fl:ext_bvdiv", "src/vosslib/gen_arithm.fl:dbvdiv", "src/vosslib/gen_arithm.fl:dbvmod", "src/vosslib/gen_arithm.fl:dbvashr", "src/vosslib/gen_arithm.fl:dbvshr", "src/vosslib/gen_arithm.fl:dbvshl", "src/vosslib/gen_arithm.fl:dbvgAND", "src/vosslib/gen_arithm.fl:dbvgNOT"]}
{"id": "C98", "title": "A name means its newest definition in the innermost open abstract type, and abstract types hide what they do not export", "statement": "For a session of definitions, overloads, forward declarations, type declarations, exports, begin_abstype and end_abstype: a name always refers to its newest definition in the innermost scope that has one; after end_abstype only the definitions that are exported, or are the newest of the listed names, are left of the scope, and all other names mean what they meant before; a definition that can be referred to is never collected as garbage. (Violated: constructors of types that are declared inside an abstract type are never hidden; hidden definitions come back when an outer abstract type lists their name; an end_abstype that is refused ends the abstract type without hiding anything and spoils the levels of later definitions; exporting a name twice gives the older definition.)", "quantifier": "all sessions: any number of statements, names and nested abstract types, in any order", "why_tests_cant": "What a name means depends on the whole history of the session, which has no bound", "anchors": ["src/bin/fl/symbol.c:Find_Function_Def", "src/bin/fl/symbol.c:update_stbl", "src/bin/fl/symbol.c:New_fn_def", "src/bin/fl/symbol.c:InsertOverloadDef", "src/bin/fl/symbol.c:Make_forward_declare", "src/bin/fl/symbol.c:Merge_fn_defs", "src/bin/fl/symbol.c:Export_Fun", "src/bin/fl/symbol.c:Begin_ADT", "src/bin/fl/symbol.c:End_ADT", "src/bin/fl/symbol.c:Mark_symbols", "src/bin/fl/language.y:Begin_ADT", "src/bin/fl/language.y:Merge_fn_defs"]}
{"id": "C99", "title": "Functions on symbolic lists agree with those on lists for every assignment", "statement": "A symbolic list stands for one list for every assignment of the Boolean variables. s_append, s_rev, s_length, s_last, s_butlast, s_el, s_map, s_filter, s_itlist and s_accumulate give, for every assignment, what the function of that name gives for the list of that assignment; s_last, s_butlast and s_el fail exactly when they have no value for some assignment; s_upto and s_downto come to an end and give the integers between the values of two bit-vectors; a conditional between lists of different lengths is the one or the other; conversions from and to lists and guarded lists keep the elements. (Violated: s_accumulate of a list whose length depends on a variable uses the last element of the shortest list for all assignments; s_append with a second argument that is not evaluated yet, and depends on the same conditions as the first, loses elements.)", "quantifier": "all symbolic lists of any length over any elements that can be merged, all assignments, all conditions under which the functions are called", "why_tests_cant": "the number of assignments is exponential in the number of variables, and lengths are not bounded", "anchors": ["src/vosslib/symbolic_lists.fl:s_NIL", "src/vosslib/symbolic_lists.fl:s_CONS", "src/vosslib/symbolic_lists.fl:is_s_NIL", "src/vosslib/symbolic_lists.fl:slist2list", "src/vosslib/symbolic_lists.fl:slist2guarded_list", "src/vosslib/symbolic_lists.fl:list2slist", "src/vosslib/symbolic_lists.fl:s_append", "src/vosslib/symbolic_lists.fl:s_length", "src/vosslib/symbolic_lists.fl:s_rev", "src/vosslib/symbolic_lists.fl:s_last", "src/vosslib/symbolic_lists.fl:s_butlast", "src/vosslib/symbolic_lists.fl:s_el", "src/vosslib/symbolic_lists.fl:s_map", "src/vosslib/symbolic_lists.fl:s_filter", "src/vosslib/symbolic_lists.fl:s_itlist", "src/vosslib/symbolic_lists.fl:s_accumulate", "src/vosslib/symbolic_lists.fl:s_upto", "src/vosslib/symbolic_lists.fl:s_downto", "src/bin/fl/graph.c:Gen_map2"]}
{"id": "C100", "title": "bv_sum adds up all values of a bit-vector", "statement": "bv_sum vars bv is the sum of the values of bv, which may be negative, over all values of the variables in vars (each taken once, also those that bv does not depend on), as a function of the other variables; gen_model_count vars fs gives the number of values of the variables for which each function is true, as a function of the other variables. (Violated: without variables bv_sum gives twice the value; and a variable that is summed over, comes after all free variables and has the number found in the uninitialised record of the constants is not summed over.)", "quantifier": "all bit-vectors and lists of Boolean functions, lists of variables (with duplicates), orders of the variables and assignments", "why_tests_cant": "the sums range over exponentially many assignments, and the errors depend on the order of the variables and on memory that is not initialised", "anchors": ["src/bin/fl/bv.c:bv_sum", "src/bin/fl/bv.c:do_gen_model_count", "src/bin/fl/bv.c:gen_model_count_rec", "src/bin/fl/bv.c:get_next_vars", "src/bin/fl/bv.c:shift_left", "src/bin/fl/new_bdd.c:Get_Size_and_Vars", "src/bin/fl/preamble.fl:bv_sum"]}
{"id": "C101", "title": "Symbolic matrices behave as matrices", "statement": "matrix2smatrix of a matrix of integers or bit-vectors makes a symbolic matrix with these elements (and refuses rows of different lengths), smatrix2matrix gives them back and fails if they depend on other variables; get_element gives the element at a row and column that may be symbolic and zero outside of the matrix; set_element and maybe_set_element change the element at a row and column that may be symbolic and no other; +, -, scalar *, abs and transpose work element by element; * gives the matrix product; the sizes are as expected and matrices whose sizes do not fit are refused. (Violated: negative indices give elements of the matrix; set_element outside of the matrix is accepted, is not visible to get_element, but changes products.)", "quantifier": "all matrices, sizes, elements that depend on other variables, symbolic indices and assignments", "why_tests_cant": "a symbolic matrix stands for the elements at all indices and all assignments, and the index variables must not be confused", "anchors": ["src/vosslib/smatrix.fl:matrix2smatrix", "src/vosslib/smatrix.fl:smatrix2matrix", "src/vosslib/smatrix.fl:get_element", "src/vosslib/smatrix.fl:set_element", "src/vosslib/smatrix.fl:maybe_set_element", "src/vosslib/smatrix.fl:transpose", "src/vosslib/smatrix.fl:mat_mult", "src/vosslib/smatrix.fl:mk_sub", "src/vosslib/smatrix.fl:bv_matrix2symb"]}
{"id": "C102", "title": "Conditional sections select the lines that are read", "statement": "In properly nested files, with #ifdef, #else and #endif inside of each other and inside of loaded files, exactly the lines are read whose sections are selected by the names defined at that point; #define and #undefine in sections that are skipped have no effect; after the files the lexer is as before. For every file, nested properly or not, each line that is read has the file name and the line number that are reported for it, and lines are read in order and at most once. An #else or #endif without an #ifdef is reported. (Violated: the first unmatched #endif is accepted; an unmatched #else skips the rest of the file and sections of later files; a section left open in a loaded file skips the rest of the loading file; a blank after a directive or a name changes its meaning.)", "quantifier": "all sequences of files, of any nesting depth of sections and loads, and all states of the lexer", "why_tests_cant": "the sections selected depend on the whole history of definitions and on sections around and before, also in other files", "anchors": ["src/bin/fl/lexer:hash_define", "src/bin/fl/lexer:hash_undefine", "src/bin/fl/lexer:is_defined", "src/bin/fl/lexer:Init_lexer", "src/bin/fl/lexer:Read_from_file", "src/bin/fl/lexer:Return_to_old_fid"]}
{"id": "C103", "title": "String literals mean what is written", "statement": "A string literal, in one part or continued on further lines, is read as the characters that its parts say together, with \\n, \\t and a backslash before any other character as documented; reading goes on right after it; every string can be written as a literal; nothing else is read as a literal, and reading one never leaves the text. The line number grows by the number of newlines read. (Violated: the newlines between the parts of a continued literal are never counted, so later line numbers are too small.)", "quantifier": "all strings, ways to write them, numbers of parts, and texts that follow", "why_tests_cant": "all texts of any length, with every mix of escapes, quotes and continuations", "anchors": ["src/bin/fl/lexer:expand_string", "src/bin/fl/lexer:merge_strings"]}
{"id": "C104", "title": "The list functions of the preamble are the textbook functions", "statement": "upto, downto and -- give the numbers between their arguments; zip pairs lists of the same length and unzip is its inverse; map2, map3, map4 and map_index apply a function place by place; itlist, rev_itlist, accumulate and flatmap fold; replicate, atmost, split_list and cluster build and cut lists, and fail when that is not possible; interleave takes from the lists in turn; transpose exchanges rows and columns; list2str separates its elements. (Violated: transpose accepts rows of different lengths and drops elements, and fails on the empty matrix.)", "quantifier": "all lists, numbers and functions", "why_tests_cant": "lists of every length and content, with all ways in which lengths do not fit", "anchors": ["src/bin/fl/preamble.fl:zip", "src/bin/fl/preamble.fl:upto", "src/bin/fl/preamble.fl:downto", "src/bin/fl/preamble.fl:map2", "src/bin/fl/preamble.fl:map3", "src/bin/fl/preamble.fl:split_list", "src/bin/fl/preamble.fl:cluster", "src/bin/fl/preamble.fl:interleave", "src/bin/fl/preamble.fl:unzip", "src/bin/fl/preamble.fl:transpose", "src/bin/fl/preamble.fl:list2str"]}
{"id": "C105", "title": "The library of bit-vectors without sign computes with natural numbers", "statement": "For vectors of fixed size, + - and * are the operations modulo the number of values, the comparisons compare the numbers, / and % are quotient and remainder, the shifts divide or multiply by powers of two, and int2fbv and fbv2int are inverse to each other; the functions for vectors of any size give the exact numbers. All of them work for symbolic vectors, under every assignment. (Violated: leading ones are removed as if they were leading zeros, so that 14 % 15 is 2, 2 ''+'' 1 may be 1 and 3 ''<<'' 1 is 2; 0 has no vector of any size; int2fbv accepts numbers that do not fit; ''>'' ignores its arguments; |>> shifts one place too far if the top bit is 1.)", "quantifier": "all vectors of Boolean functions of all lengths, all assignments, all integers", "why_tests_cant": "symbolic vectors of every size under every assignment", "anchors": ["src/vosslib/gen_u_arithm.fl:dbvadd", "src/vosslib/gen_u_arithm.fl:fbvmult", "src/vosslib/gen_u_arithm.fl:fixed_ext_bvdiv", "src/vosslib/gen_u_arithm.fl:fbvshr", "src/vosslib/gen_u_arithm.fl:fbvashr", "src/vosslib/gen_u_arithm.fl:int2dbv", "src/vosslib/gen_u_arithm.fl:int2fbv", "src/vosslib/gen_u_arithm.fl:bv_trim", "src/vosslib/bool_u_arithm.fl:gTHEN"]}
{"id": "C106", "title": "Pretty printing keeps the texts and uses a layout that the document allows", "statement": "Making a document with nil, text, nest, <->, <+>, $-$, $+$, hcat, hsep, vcat, cat, sep, hang and punctuate, and rendering it, does not fail, for any width and ribbon. All the texts are written, in order, with nothing but white space added, and the lines are those of one of the layouts that the combinators describe: side by side with the lines moved along, one above the other (with overlap for $-$ only), and for sep and cat either all on one line or all below each other. sep of texts uses one line exactly if it fits. (Violated: lines that are not indented get a blank in front, and a negative indentation moves to the right; after vcat, $+$ acts as $-$.)", "quantifier": "all documents that can be written with the combinators, all texts, widths, ribbons and final texts", "why_tests_cant": "the documents are trees of any size, and the choice of the layout depends on all of it and on the width", "anchors": ["src/vosslib/pretty.fl:reduce", "src/vosslib/pretty.fl:besideRed", "src/vosslib/pretty.fl:aboveNest", "src/vosslib/pretty.fl:sepLine", "src/vosslib/pretty.fl:sepNB", "src/vosslib/pretty.fl:vcat", "src/vosslib/pretty.fl:punctuate", "src/vosslib/pretty.fl:niceL", "src/vosslib/pretty.fl:render", "src/bin/fl/doc.c:doc2print"]}
{"id": "C107", "title": "The smallest and the largest value of a symbolic vector are found", "statement": "get_minimum_value and get_maximum_value of a bit-vector of Boolean functions, as a number in two's complement, give a value that the vector takes for some assignment of the variables, such that it takes no smaller (larger) one. The versions for vectors of expressions, with and without sign, do the same. (Violated for these: with sign, negative results are given as positive numbers; without sign, the first digit is taken for a sign, so that the minimum exceeds the maximum whenever this digit depends on a variable.)", "quantifier": "all non-empty vectors of Boolean functions of any length over any variables in any order", "why_tests_cant": "the vector stands for exponentially many values, and each digit that is chosen changes all the functions after it", "anchors": ["src/vosslib/bool_arithm.fl:get_minimum_value", "src/vosslib/bool_arithm.fl:get_maximum_value", "src/vosslib/bexpr_arithm.fl:BDD_get_minimum_value", "src/vosslib/bexpr_u_arithm.fl:BDD_get_maximum_value", "src/bin/fl/preamble.fl:param"]}
{"id": "C108", "title": "The list functions of the design library", "statement": "chunks cuts a list into parts of the given length, split_into into a given number of parts, split_at at a place; remove and modify change the element at a place; group and hist collect neighbours that are related and count elements; permutations gives every permutation and rotations the rotations; elem, find_maybe, exhaust, filter_some, ixmap search and number; one_of, one_of_weighted, some_of and split_at_random give, for every random number, a choice of the kind they promise, and every such choice can come out. (Violated: chunks of a length below 1 never ends, and remove and modify take places before the first for the first.)", "quantifier": "all lists, all predicates and orders, all lengths and places, all sequences of random numbers", "why_tests_cant": "lists have any length, and a random function has to be right for every sequence of draws", "anchors": ["IDVII/src/fl/design/misc.fl:chunks", "IDVII/src/fl/design/misc.fl:split_into", "IDVII/src/fl/design/misc.fl:split_at", "IDVII/src/fl/design/misc.fl:remove", "IDVII/src/fl/design/misc.fl:group", "IDVII/src/fl/design/misc.fl:hist", "IDVII/src/fl/design/misc.fl:permutations", "IDVII/src/fl/design/misc.fl:rotations", "IDVII/src/fl/design/misc.fl:one_of_weighted", "IDVII/src/fl/design/misc.fl:some_of"]}
{"id": "C109", "title": "Lists of vector names are sets of bits", "statement": "vec_intersect of two lists of vector names gives names with exactly the common bits, vec_overlap tells whether there are any, vec_subtract gives names with exactly the bits of the first list that are not in the second, and vec_zip pairs names of equal size with the bits of both lists in order. (Violated: constants are compared by name; vec_subtract leaves bits of the second list when names of the first list share bits; vec_zip loses bits when part of a vector is not one vector.)", "quantifier": "all lists of names, all orders the sorting can produce", "why_tests_cant": "the names are first compared as names, then put into classes, extracted and expanded; that bits are neither lost nor kept depends on how ranges in all positions combine", "anchors": ["src/vosslib/vector_names.fl:vec_intersect", "src/vosslib/vector_names.fl:vec_overlap", "src/vosslib/vector_names.fl:vec_subtract", "src/vosslib/vector_names.fl:vec_zip", "src/bin/fl/voss_strings.c:get_vector_signature"]}
{"id": "C110", "title": "Printed bit-vectors show their bits and value", "statement": "A bit-vector is printed as its bits between angle brackets, with commas between them; if all bits are constants, its two's complement value follows in parentheses. (Violated: the value is computed with C integers, so that vectors of more than 30 bits with the sign bit set are printed by an undefined computation; the empty vector has no opening bracket; the text of a long vector is cut.)", "quantifier": "all vectors of constants and functions, all lengths, all print depths, all printers of functions", "why_tests_cant": "the sign, the overflow of the value and the size of the buffer depend on the length of the vector and on where its first symbolic bit is", "anchors": ["src/bin/fl/bv.c:bv_list2str", "src/bin/fl/bv.c:bv2str", "src/bin/fl/bv.c:bv2str_fn"]}
{"id": "C111", "title": "Printing a string prints its text", "statement": "Printing a string never does anything undefined and prints the sheet on which the characters, newlines and cursor movements of the string have been carried out in order. A string without escape bytes and places for a break is printed as it is; without escape bytes, each place for a break is taken out or becomes a newline, and lines stay within the columns if the places are close enough.", "quantifier": "all strings, all numbers of columns", "why_tests_cant": "the text is kept in lines that are allocated and grown on demand while the cursor moves in all directions; lost or unwritten characters and writes past a line depend on lengths and movements no test enumerates", "anchors": ["src/bin/fl/expand_cursor.c:Print_line", "src/bin/fl/expand_cursor.c:print_char", "src/bin/fl/expand_cursor.c:move_up", "src/bin/fl/expand_cursor.c:move_down"]}
{"id": "C112", "title": "Buffered files give back what was written", "statement": "Records written to a file through the buffered file functions are added to it in order and complete, and reading records of the same sizes gives them back, followed by the end of the file, however many bytes the system delivers at a time; a file that ends inside a record is noticed. (Violated: records of more than 1024 bytes are read past the end of a buffer, and a read that keeps failing is repeated for ever.)", "quantifier": "all sequences of records, all sizes, all ways the system splits or fails reads", "why_tests_cant": "whether a byte is lost or repeated at a refill depends on how record boundaries, buffer boundaries and short reads meet", "anchors": ["src/bin/fl/file_ops.c:file_write", "src/bin/fl/file_ops.c:file_read", "src/bin/fl/file_ops.c:file_close", "src/bin/fl/file_ops.c:LL_Read"]}
{"id": "C113", "title": "Only usable plugin functions are added", "statement": "The functions of a plugin are added to the language exactly if each has a name, code, a type, a strictness for every argument and a fixity that suits its number of arguments; otherwise none is added and the reasons are reported. (Violated: a function without a type or strictness makes the check follow a null pointer; many errors are reported past the end of the buffer.)", "quantifier": "all lists of function descriptions, all lists of errors, all buffer sizes", "why_tests_cant": "descriptions come from foreign code; whether the checks together exclude every unusable one, and how long reports fill the buffer, is not settled by some plugins that load", "anchors": ["src/bin/fl/plugin_checker.c:check_plugin_fun", "src/bin/fl/plugin_checker.c:check_plugin_funs", "src/bin/fl/plugin_loader.c:register_funs", "src/bin/fl/plugin_errlog.c:get_plugin_errors"]}
{"id": "C114", "title": "Bit-vectors as lists of a fixed size", "statement": "fixed_bv2list and fixed_bev2list give a list of exactly the number of bits asked for. If the vector is not longer, the list stands for the same number: as a signed number if the sign is extended, otherwise as an unsigned one. A longer vector is refused, or with truncate gives the number modulo a power of two. (Violated: with truncate, a negative size is undefined behaviour.)", "quantifier": "all vectors of Boolean functions, all sizes, all assignments", "why_tests_cant": "sizes, vectors and symbolic bits are unbounded; that replicated sign bits leave the value unchanged is a fact about all sizes", "anchors": ["src/bin/fl/preamble.fl:fixed_bv2list", "src/bin/fl/preamble.fl:fixed_bev2list", "src/bin/fl/list_ops.c:lastn"]}
{"id": "C115", "title": "Substitution of vector names is substitution of bits", "statement": "vec_assoc of a vector and a list of pairs of vectors gives vectors whose bits are, in order, the bits that the pairs put in the place of the bits of the vector; vec_rev_assoc does the same from the second to the first components. Pairs of different sizes are refused. (Violated: vectors with several index groups can come out in another order; pairs of different sizes are accepted and shift the bits of the pairs after them.)", "quantifier": "all vectors, all lists of pairs, all ranges", "why_tests_cant": "the vector may lie across several pairs and its indices may be in any order; names are expanded, looked up and merged again", "anchors": ["src/vosslib/vector_names.fl:vec_assoc", "src/vosslib/vector_names.fl:vec_rev_assoc", "src/vosslib/vector_names.fl:get_signatures"]}
{"id": "C116", "title": "Word expressions for an SMT solver", "statement": "In every model of the assertions that are sent to an SMT solver, the name of an expression has the value of the expression; the ranges sent for a slice are its indices in order; and every expression of the supported kinds gives assertions that the solver accepts. (Violated: a choice between vectors by a comparison, and a comparison joined with a single bit, are sent with operands of the wrong sort.)", "quantifier": "all expressions, all values of variables, all lists of indices", "why_tests_cant": "expressions nest without bound, and each operator is sent in one of two forms that depends on what is below it", "anchors": ["src/vosslib/smt.fl:wexpr2smtbv", "src/vosslib/smt.fl:is_relation", "src/vosslib/smt.fl:merge_indices"]}
