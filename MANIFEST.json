{
 "claims": [
  {
   "property": "C01",
   "status": "proved",
   "theorems": [
    "Voss.Arbi.c01_add_sub_exact",
    "Voss.Arbi.int_repr"
   ],
   "note": "all digit arrays"
  },
  {
   "property": "C02",
   "status": "partial",
   "theorems": [
    "Voss.Arbi.c02_mul_exact_partial",
    "Voss.Arbi.c02_mul_violated"
   ],
   "note": "full claim is false of the code: (-1)*(-2^63) traps; every other product proved (first operand up to 2^29 digits)"
  },
  {
   "property": "C03",
   "status": "partial",
   "theorems": [
    "Voss.Arbi.c03_div_mod_floor_partial",
    "Voss.Arbi.c03_div_mod_correct_if_returns",
    "Voss.Arbi.c03_div_violated"
   ],
   "note": "full claim is false of the code: dividing by -2^63 can trap; termination and floor law proved for every other divisor"
  },
  {
   "property": "C04",
   "status": "proved",
   "theorems": [
    "Voss.Arbi.c04_compare_numeric"
   ],
   "note": ""
  },
  {
   "property": "C05",
   "status": "proved",
   "theorems": [
    "Voss.Arbi.c05_bitwise",
    "Voss.Arbi.c05_bits_determine"
   ],
   "note": ""
  },
  {
   "property": "C06",
   "status": "partial",
   "theorems": [
    "Voss.Arbi.c06_print_partial",
    "Voss.Arbi.c06_parse",
    "Voss.Arbi.c06_roundtrip",
    "Voss.Arbi.c06_violated"
   ],
   "note": "full claim is false of the code (witnesses proved); every other number proved"
  },
  {
   "property": "C07",
   "status": "proved",
   "theorems": [
    "Voss.Arbi.c07_gcd"
   ],
   "note": ""
  },
  {
   "property": "C08",
   "status": "proved",
   "theorems": [
    "Voss.Bv.c08_add_sub"
   ],
   "note": "All widths, all symbolic contents, all assignments; parametric in a Boolean function package with the laws of class Fml (what C14/C15 establish for the BDD package)."
  },
  {
   "property": "C09",
   "status": "proved",
   "theorems": [
    "Voss.Bv.c09_mul"
   ],
   "note": "As C08."
  },
  {
   "property": "C10",
   "status": "proved",
   "theorems": [
    "Voss.Bv.c10_div_mod",
    "Voss.Bv.c10_unique"
   ],
   "note": "As C08; both the power-of-two and the long division path."
  },
  {
   "property": "C11",
   "status": "proved",
   "theorems": [
    "Voss.Bv.c11_compare"
   ],
   "note": "As C08; symbolic and strict equality included."
  },
  {
   "property": "C12",
   "status": "proved",
   "theorems": [
    "Voss.Bv.c12_int_conv",
    "Voss.Bv.c12_scalar_iff"
   ],
   "note": "Integers up to 2^21 words (limit of the digit-string code), bit-vectors up to 2^33 bits."
  },
  {
   "property": "C13",
   "status": "proved",
   "theorems": [
    "Voss.Bv.c13_shift_bits",
    "Voss.Bv.c13_bitwise",
    "Voss.Bv.c13_empty_ub"
   ],
   "note": "c13_empty_ub records that the empty bit list is accepted by list2bv but is undefined behaviour in every use."
  },
  {
   "property": "C14",
   "status": "proved",
   "theorems": [
    "Voss.Bdd.c14_canonical"
   ],
   "note": "all histories of commands (variables, connectives, quantification, substitution, forgetting handles, garbage collection, reordering, save/load) from a fresh package; histories with reordering must not use names like x_n_n (see C22)"
  },
  {
   "property": "C15",
   "status": "proved",
   "theorems": [
    "Voss.Bdd.c15_connectives",
    "Voss.Bdd.c15_lazy"
   ],
   "note": "every reachable state"
  },
  {
   "property": "C16",
   "status": "proved",
   "theorems": [
    "Voss.Bdd.c16_quantification",
    "Voss.Bdd.c16_primitive"
   ],
   "note": "every reachable state, any list of names"
  },
  {
   "property": "C17",
   "status": "partial",
   "theorems": [
    "Voss.Bdd.c17_forall_violated",
    "Voss.Bdd.c17_thereis_violated",
    "Voss.Bdd.c17_poisons_and",
    "Voss.Bdd.c17_constant_partial",
    "Voss.Bdd.c17_relprod_partial"
   ],
   "note": "full claim refuted for both operations of the pinned code; holds with no quantified variables, and holds in full once the operation code is corrected"
  },
  {
   "property": "C18",
   "status": "proved",
   "theorems": [
    "Voss.Bdd.c18_substitution"
   ],
   "note": "every reachable state, every substitution list"
  },
  {
   "property": "C19",
   "status": "proved",
   "theorems": [
    "Voss.Bdd.c19_support"
   ],
   "note": "every reachable state"
  },
  {
   "property": "C20",
   "status": "proved",
   "theorems": [
    "Voss.Bdd.c20_truth_cover",
    "Voss.Bdd.c20_duplicates"
   ],
   "note": "every reachable state, duplicate-free name lists; duplicates give a wrong count"
  },
  {
   "property": "C21",
   "status": "proved",
   "theorems": [
    "Voss.Bdd.c21_gc_unobservable",
    "Voss.Bdd.c21_gc_live"
   ],
   "note": "collection at any point of any history"
  },
  {
   "property": "C22",
   "status": "partial",
   "theorems": [
    "Voss.Bdd.c22_reorder_partial",
    "Voss.Bdd.c22_violated"
   ],
   "note": "sifting with any decisions and interrupts and requested orders, at any point of any history without names ending in _n_n; with such names the code runs out of bounds"
  },
  {
   "property": "C23",
   "status": "proved",
   "theorems": [
    "Voss.Bdd.c23_save_load",
    "Voss.Bdd.c23_same_session"
   ],
   "note": "any two sessions; text layout of the file not modelled"
  },
  {
   "property": "C24",
   "status": "partial",
   "theorems": [
    "Voss.Bexpr.c24_history",
    "Voss.Bexpr.c24_unique",
    "Voss.Bexpr.c24_defined_partial",
    "Voss.Bexpr.c24_collect",
    "Voss.Bexpr.c24_undefined"
   ],
   "note": "Every completed history gives the right functions; definedness fails after garbage collections (refuted), proved without them."
  },
  {
   "property": "C25",
   "status": "proved",
   "theorems": [
    "Voss.Bexpr.c25_encoding",
    "Voss.Bexpr.c25_unsat",
    "Voss.Bexpr.c25_model"
   ],
   "note": "The solver's definite answers are assumed right; a solver that gives up yields F or a time-out."
  },
  {
   "property": "C26",
   "status": "partial",
   "theorems": [
    "Voss.Bexpr.c26_history_partial",
    "Voss.Bexpr.c26_defined",
    "Voss.Bexpr.c26_stale",
    "Voss.Bexpr.c26_back",
    "Voss.Bexpr.c26_back_defined"
   ],
   "note": "Refuted for histories with different substitutions; proved for one substitution. BDD operations by their laws."
  },
  {
   "property": "C27",
   "status": "proved",
   "theorems": [
    "Voss.Bexpr.c27_subst"
   ],
   "note": "all histories and substitution lists"
  },
  {
   "property": "C28",
   "status": "partial",
   "theorems": [
    "Voss.Bexpr.c28_save_load_partial",
    "Voss.Bexpr.c28_blank",
    "Voss.Bexpr.c28_header"
   ],
   "note": "Round trip through the characters of the file for names without white space below 1024 bytes and fewer than 2^31 lines; refuted otherwise."
  },
  {
   "property": "C29",
   "status": "partial",
   "theorems": [
    "Voss.Lib.c29_map",
    "Voss.Lib.c29_shadow_partial",
    "Voss.Lib.c29_violated"
   ],
   "note": "The finite-map part is proved for all histories within the contract (tables of up to 2147483629 entries); shadowing is proved with resizing off and refuted with resizing on: growing the table reverses the chains, so a key inserted twice finds its older entry."
  },
  {
   "property": "C30",
   "status": "partial",
   "theorems": [
    "Voss.Lib.c30_partial",
    "Voss.Lib.c30_violated"
   ],
   "note": "Proved for histories that insert absent keys, delete present keys and change no key twice in a generation; refuted otherwise (null pointer, wrong value, key left in the table)."
  },
  {
   "property": "C31",
   "status": "proved",
   "theorems": [
    "Voss.Lib.Rec.c31_new",
    "Voss.Lib.Rec.c31_free",
    "Voss.Lib.Rec.c31_live",
    "Voss.Lib.Rec.c31_pure"
   ],
   "note": "All histories of new_rec/free_rec, all record sizes; of malloc only that a new block does not overlap those held."
  },
  {
   "property": "C32",
   "status": "partial",
   "theorems": [
    "Voss.Lib.Buf.c32_partial",
    "Voss.Lib.Buf.c32_violated",
    "Voss.Lib.Buf.c32_overflow_violated"
   ],
   "note": "Proved for sequences of up to 2^31 bytes that do not ask for the item just past the end; both exclusions are necessary."
  },
  {
   "property": "C33",
   "status": "partial",
   "theorems": [
    "Voss.Lib.Name.c33_lex_partial",
    "Voss.Lib.Name.c33_preorder_partial",
    "Voss.Lib.Name.c33_numeric_partial",
    "Voss.Lib.Name.c33_violated"
   ],
   "note": "Proved for all names whose numbers are below 2^31; beyond that atoi is undefined."
  },
  {
   "property": "C34",
   "status": "partial",
   "theorems": [
    "Voss.Sim.c34_exact_partial",
    "Voss.Sim.c34_shl_wide_partial",
    "Voss.Sim.c34_violated",
    "Voss.Sim.c34_shr_undefined"
   ],
   "note": "Left shifts of more than 32 bits and right shifts of more than 31 bits are excluded: the code violates the property there (proved).  Division by zero gives all ones, modulus by zero the dividend, a read outside a memory X."
  },
  {
   "property": "C35",
   "status": "partial",
   "theorems": [
    "Voss.Sim.c35_sound_partial",
    "Voss.Sim.c35_mono",
    "Voss.Sim.c35_latleq",
    "Voss.Sim.c35_latleq_not_monotone"
   ],
   "note": "The lattice comparison is not monotone (proved); wide shifts as in C34."
  },
  {
   "property": "C36",
   "status": "partial",
   "theorems": [
    "Voss.Ste.c36_strong_partial",
    "Voss.Ste.c36_implies_partial",
    "Voss.Ste.c36_consistent_partial",
    "Voss.Ste.c36_overlapping_consequents_violated",
    "Voss.Ste.c36_lost_change_violated",
    "Voss.Ste.c36_register_antecedent_violated",
    "Voss.Ste.c36_loop_violated",
    "Voss.Ste.c36_failed_relaxation_accepted",
    "Voss.Ste.c36_overlapping_antecedents_dropped",
    "Voss.Ste.c36_uninitialised_flag",
    "Voss.Ste.c36_empty_interval_undefined"
   ],
   "note": "Both verdicts are sound for circuits without zero-delay loops when antecedents are not on register outputs, overlapping consequents on a node end together, and no consequent starts where an antecedent on the same node ends; each exclusion has a refutation.  Node names, trace output and the option -m are not modelled."
  },
  {
   "property": "C37",
   "status": "partial",
   "theorems": [
    "Voss.Ste.c37_stable_partial",
    "Voss.Ste.c37_order_partial",
    "Voss.Ste.c37_ends",
    "Voss.Ste.c37_lost_change_violated",
    "Voss.Ste.c37_limit_ignored"
   ],
   "note": "Consistency at every time of a run, independence of the order of evaluation, termination with right ranks.  The lost-change case of C36 is a violation; the iteration limit does not end an oscillation inside one rank (proved)."
  },
  {
   "property": "C38",
   "status": "partial",
   "theorems": [
    "Voss.Sim.c38_weaken_partial",
    "Voss.Sim.c38_sound_partial",
    "Voss.Sim.c38_latleq_violated",
    "Voss.Ste.c38_run"
   ],
   "note": "For one evaluation of any primitive, and for whole runs: values at most less defined at every time, success under limits implies success without; c36_* hold with any limits.  Missing: information-flow weakening.  Fails for the lattice comparison (proved)."
  },
  {
   "property": "C39",
   "status": "partial",
   "theorems": [
    "Voss.Fl.c39_optimise_partial",
    "Voss.Fl.c39_capture_global",
    "Voss.Fl.c39_capture_bound"
   ],
   "note": "Proved for programs without identifiers of the form _ZZ'<number>; refuted otherwise (such identifiers are legal). Call-by-name semantics in an arbitrary combinatory algebra."
  },
  {
   "property": "C41",
   "status": "partial",
   "theorems": [
    "Voss.Arbi.c41_random2_range_partial",
    "Voss.Arbi.c41_random2_violated"
   ],
   "note": "full claim is false of the code from 62 bits on"
  },
  {
   "property": "C42",
   "status": "partial",
   "theorems": [
    "Voss.Bdd.c42_pairs_partial",
    "Voss.Bdd.c42_violated"
   ],
   "note": "holds without names ending in _n_n, refuted with them"
  },
  {
   "property": "C43",
   "status": "partial",
   "theorems": [
    "Voss.Bdd.c43_binders_partial",
    "Voss.Bdd.c43_violated"
   ],
   "note": "holds when no bound name ends in a digit, refuted otherwise"
  },
  {
   "property": "C44",
   "status": "partial",
   "theorems": [
    "Voss.Bdd.c44_var_order_partial",
    "Voss.Bdd.c44_violated"
   ],
   "note": "holds for distinct current-state variables, refuted for next-state names and for _n"
  },
  {
   "property": "C45",
   "status": "partial",
   "theorems": [
    "Voss.Lib.Rec.c45_scan_partial",
    "Voss.Lib.Rec.c45_violated"
   ],
   "note": "Proved while the buckets fit in one block; refuted for a table of 169 entries."
  },
  {
   "property": "C46",
   "status": "partial",
   "theorems": [
    "Voss.Lib.Str.c46_saved",
    "Voss.Lib.Str.c46_intern_partial",
    "Voss.Lib.Str.c46_violated"
   ],
   "note": "Saving is proved for all strings, interning for strings of up to 130000 characters and refuted beyond."
  },
  {
   "property": "C47",
   "status": "partial",
   "theorems": [
    "Voss.Lib.Str.c47_shared",
    "Voss.Lib.Str.c47_own_partial",
    "Voss.Lib.Str.c47_violated"
   ],
   "note": "Proved in full for the shared buffer; for private buffers for strings below the limit, refuted at the limit."
  },
  {
   "property": "C48",
   "status": "partial",
   "theorems": [
    "Voss.Lib.Str.c48_decimal_partial",
    "Voss.Lib.Str.c48_violated"
   ],
   "note": "Decimal numbers without leading zero are read correctly; the rest is refuted."
  },
  {
   "property": "C49",
   "status": "partial",
   "theorems": [
    "Voss.Lib.Uniq.c49_partial"
   ],
   "note": "Except for fetching the item just past the end (C32) and for buffers of 2^31 bytes or more; item_hash is a parameter (its int arithmetic may overflow)."
  },
  {
   "property": "C50",
   "status": "partial",
   "theorems": [
    "Voss.Bexpr.c50_flat_partial",
    "Voss.Bexpr.c50_nested"
   ],
   "note": "Proved when no branch contains a conditional still to be evaluated; refuted otherwise."
  },
  {
   "property": "C51",
   "status": "partial",
   "theorems": [
    "Voss.Bexpr.c51_signature_partial",
    "Voss.Bexpr.c51_same",
    "Voss.Bexpr.c51_missed"
   ],
   "note": "Refuted for colliding signatures."
  },
  {
   "property": "C52",
   "status": "partial",
   "theorems": [
    "Voss.Fl.c52_small",
    "Voss.Fl.c52_large",
    "Voss.Fl.c52_free",
    "Voss.Fl.c52_compile_partial"
   ],
   "note": "Both abstraction algorithms for all terms; the whole compiler under the restriction of C39. Linking of global names is not modelled."
  },
  {
   "property": "C53",
   "status": "partial",
   "theorems": [
    "Voss.Fl.c53_select_partial",
    "Voss.Fl.c53_error_partial",
    "Voss.Fl.c53_recursive_partial",
    "Voss.Fl.c53_constructor",
    "Voss.Fl.c53_compiled_partial",
    "Voss.Fl.c53_capture_global",
    "Voss.Fl.c53_capture_parameter",
    "Voss.Fl.c53_capture_pattern"
   ],
   "note": "Proved for programs that do not use the names the compiler makes up; refuted otherwise. Strict and cached definitions and named arguments are not modelled."
  },
  {
   "property": "C54",
   "status": "partial",
   "theorems": [
    "Voss.Fl.c54_session_partial",
    "Voss.Fl.c54_evaluate_partial",
    "Voss.Fl.c54_context",
    "Voss.Fl.c54_none",
    "Voss.Fl.c54_identical"
   ],
   "note": "Proved for evaluations that take none of the three shortcuts, which are refuted by concrete runs; external functions have scalar arguments; reference variables, caching and the recursion limit are not modelled; = only on numbers and Booleans. Says nothing about evaluations that fail or do not end."
  },
  {
   "property": "C55",
   "status": "partial",
   "theorems": [
    "Voss.Fl.c55_complete_partial",
    "Voss.Fl.c55_session_partial",
    "Voss.Fl.c55_after_failure"
   ],
   "note": "Proved for sessions without failures; refuted after a failure."
  },
  {
   "property": "C40",
   "status": "partial",
   "theorems": [
    "Voss.Cache.c40_session_partial",
    "Voss.Cache.c40_ends",
    "Voss.Cache.c40_hit",
    "Voss.Cache.c40_cells",
    "Voss.Cache.c40_minus_zero",
    "Voss.Cache.c40_vector_length",
    "Voss.Cache.c40_classes"
   ],
   "note": "Proved for plain arguments of one type and functions that do not read reference cells; refuted by concrete sessions for the rest. Functions are arbitrary programs of calls; what they compute is not tied to the reducer of C54."
  },
  {
   "property": "C56",
   "status": "partial",
   "theorems": [
    "Voss.Tab.c56_map_partial",
    "Voss.Tab.c56_keys",
    "Voss.Tab.c56_copy",
    "Voss.Tab.c56_insertn",
    "Voss.Tab.c56_cell_key",
    "Voss.Tab.c56_vector_key",
    "Voss.Tab.c56_table_equality"
   ],
   "note": "Proved for tables held by one node, plain keys of one type, at most 2147483629 entries and no insertn that fails half way; refuted otherwise."
  },
  {
   "property": "C57",
   "status": "proved",
   "theorems": [
    "Voss.TC.c57_principal",
    "Voss.TC.c57_ends",
    "Voss.TC.c57_cells",
    "Voss.TC.c57_redefined_type",
    "Voss.TC.c57_tbl"
   ],
   "note": "Well-formed types and expressions without free variables are assumed (the parser's output); the assertion `e::tbl` without arguments is not well formed and is undefined behaviour (c57_tbl). c57_cells and c57_redefined_type show what these typing rules do not rule out."
  },
  {
   "property": "C58",
   "status": "partial",
   "theorems": [
    "Voss.TC.c58_resolution_partial",
    "Voss.TC.c58_ends",
    "Voss.TC.c58_common_partial",
    "Voss.TC.c58_common_violated",
    "Voss.TC.c58_open_violated",
    "Voss.TC.c58_choice_specialises"
   ],
   "note": "Proved when every alternative is an instance of the type of the overloaded name, which holds when the alternatives have no type variables; refuted otherwise. Alternatives are not themselves overloaded and have no implicit arguments; the limit of 50000 names is not modelled."
  },
  {
   "property": "C59",
   "status": "partial",
   "theorems": [
    "Voss.TC.c59_types_partial",
    "Voss.TC.c59_new_partial",
    "Voss.TC.c59_accepted_partial",
    "Voss.TC.c59_undeclared_partial",
    "Voss.TC.c59_arity_partial",
    "Voss.TC.c59_take_apart_partial",
    "Voss.TC.c59_new_violated_again",
    "Voss.TC.c59_new_violated_name",
    "Voss.TC.c59_take_apart_violated",
    "Voss.TC.c59_types_violated",
    "Voss.TC.c59_accepted_violated",
    "Voss.TC.c59_undeclared_violated",
    "Voss.TC.c59_crash_violated"
   ],
   "note": "Proved for sessions without abbreviations in which type names are not those of built-in types and have a fixed number of arguments (for being new: no name declared twice; for taking apart: variables of arguments occur in the result); refuted otherwise."
  },
  {
   "property": "C60",
   "status": "proved",
   "theorems": [
    "Voss.TC.c60_forward"
   ],
   "note": "For types without common variables, which holds since the type of a definition is a new copy (C57)."
  },
  {
   "property": "C61",
   "status": "partial",
   "theorems": [
    "Voss.TC.c61_text_stable",
    "Voss.TC.c61_text_partial",
    "Voss.TC.c61_text_violated_tuple",
    "Voss.TC.c61_text_violated_arrow",
    "Voss.TC.c61_signature_violated",
    "Voss.TC.c61_signature_violated_nested"
   ],
   "note": "Injectivity proved for types in which no tuple has a tuple or a function as its first component; refuted otherwise. The buffer of 4096 characters is not modelled."
  },
  {
   "property": "C62",
   "status": "partial",
   "theorems": [
    "Voss.Io.c62_sprintf_partial",
    "Voss.Io.c62_too_wide",
    "Voss.Io.c62_defined",
    "Voss.Io.c62_printf_partial",
    "Voss.Io.c62_width_violated",
    "Voss.Io.c62_end_violated",
    "Voss.Io.c62_printf_violated",
    "Voss.Io.c62_unknown_violated",
    "Voss.Io.c62_zero_violated",
    "Voss.Io.c62_bits_violated",
    "Voss.Io.c62_long_violated"
   ],
   "note": "Proved for formats whose directives are complete and known, with widths from 0 to 2^31-1, and %0b only with a width; the full text must be at most 130000 characters long. The other formats violate the property. The text of a Boolean for %B is a parameter."
  },
  {
   "property": "C63",
   "status": "partial",
   "theorems": [
    "Voss.Io.c63_roundtrip_partial",
    "Voss.Io.c63_literal_partial",
    "Voss.Io.c63_blank_violated",
    "Voss.Io.c63_negative_violated",
    "Voss.Io.c63_sign_violated",
    "Voss.Io.c63_mismatch_violated",
    "Voss.Io.c63_hex_violated",
    "Voss.Io.c63_short_violated"
   ],
   "note": "Proved for numbers without a width and words that are followed by something that ends them, and for zero-filled numbers and full words with a width; refuted for other fields. Refusal proved for literal text after such fields."
  },
  {
   "property": "C64",
   "status": "partial",
   "theorems": [
    "Voss.Io.Save.c64_roundtrip_partial",
    "Voss.Io.Save.c64_refs_partial",
    "Voss.Io.Save.c64_refused",
    "Voss.Io.Save.c64_signature_partial",
    "Voss.Io.Save.c64_strings_partial",
    "Voss.Io.Save.c64_alias_violated",
    "Voss.Io.Save.c64_var_violated",
    "Voss.Io.Save.c64_long_violated",
    "Voss.Io.Save.c64_prefix_violated"
   ],
   "note": "Proved for graphs without variables and external objects whose texts have at most 130000 characters; references stay one reference only if they are one node. That BDDs and bexprs come back as equal functions is a hypothesis, which C23 and C28 cover. The violations are proved."
  },
  {
   "property": "C65",
   "status": "partial",
   "theorems": [
    "Voss.Gc.c65_live_partial",
    "Voss.Gc.c65_fresh",
    "Voss.Gc.c65_collect",
    "Voss.Gc.c65_never_stuck",
    "Voss.Gc.c65_give_up",
    "Voss.Gc.c65_print_violated"
   ],
   "note": "Proved for all histories of the combinator rules S, S', C, C', B, B*, B', Y, cons, the rules that overwrite a redex with a value (K, I, hd, tl, fst, snd, cache hits), if-then-else, failures and leaf results, reference variables, caches, and collections. Assumed: local variables of the C code are reachable from the roots when a collection runs. Missing: builtin functions of other files that change counts themselves; the violation by printing is proved."
  },
  {
   "property": "C66",
   "status": "partial",
   "theorems": [
    "Voss.Lst.c66_lists",
    "Voss.Lst.c66_lastn_partial",
    "Voss.Lst.c66_lastn_violated",
    "Voss.Lst.c66_wide_violated",
    "Voss.Lst.c66_firstn_partial",
    "Voss.Lst.c66_firstn_violated",
    "Voss.Lst.c66_find",
    "Voss.Lst.c66_select",
    "Voss.Lst.c66_partition",
    "Voss.Lst.c66_classes",
    "Voss.Lst.c66_sets",
    "Voss.Lst.c66_firsts",
    "Voss.Lst.c66_union_duplicates",
    "Voss.Lst.c66_set_eq",
    "Voss.Lst.c66_positions",
    "Voss.Lst.c66_loop",
    "Voss.Lst.c66_session_partial",
    "Voss.Lst.c66_session_goes_on",
    "Voss.Lst.c66_cells_violated",
    "Voss.Lst.c66_qsort_partial",
    "Voss.Lst.c66_qsort_fail",
    "Voss.Lst.c66_qsort_violated"
   ],
   "note": "Partial because the code violates the property in the cases of the _violated theorems; outside of these the functions are proved right for all lists. The library's qsort is a parameter that satisfies what the C standard says. Equality of elements is an equivalence that does not change (a parameter). Not modelled: foreach, gcmp (C67), reference counts, non-terminating elements."
  },
  {
   "property": "C67",
   "status": "partial",
   "theorems": [
    "Voss.Lst.c67_order_partial",
    "Voss.Lst.c67_sort_partial",
    "Voss.Lst.c67_bool_violated",
    "Voss.Lst.c67_bexpr_violated",
    "Voss.Lst.c67_prim_violated"
   ],
   "note": "Proved for integers, strings, constants, and lists, tuples and constructor terms of these. For Booleans, expressions, external objects and primitive functions with data the code violates it (theorems with _violated). Reference cells are modelled, the theorem does not cover them."
  },
  {
   "property": "C68",
   "status": "partial",
   "theorems": [
    "Voss.Comp.c68_leaf_partial",
    "Voss.Comp.c68_accepts_partial",
    "Voss.Comp.c68_net_partial",
    "Voss.Comp.c68_ste_partial",
    "Voss.Comp.c68_memory_read_violated",
    "Voss.Comp.c68_delayed_predicate_violated",
    "Voss.Comp.c68_slice_index_violated",
    "Voss.Comp.c68_update_index_violated"
   ],
   "note": "Proved for one leaf with names resolved by a given table (look); hierarchy, attributes and the name tables are not modelled. The excluded cases (Update.OK, Fine) are the _violated theorems: memory reads whose width is needed, delays of predicates, indices out of range."
  },
  {
   "property": "C69",
   "status": "partial",
   "theorems": [
    "Voss.Comp.c69_ranks_partial",
    "Voss.Comp.c69_ready_partial",
    "Voss.Comp.c69_ste_partial",
    "Voss.Comp.c69_depth_violated"
   ],
   "note": "Proved if no path has more than 1000 components; c69_depth_violated shows that longer paths get wrong ranks. c69_ready_partial and c69_ste_partial combine compilation (C68), ranking and simulation (C36)."
  },
  {
   "property": "C70",
   "status": "partial",
   "theorems": [
    "Voss.Vec.c70_readback",
    "Voss.Vec.c70_bits",
    "Voss.Vec.c70_order",
    "Voss.Vec.c70_rows",
    "Voss.Vec.c70_fixpoint",
    "Voss.Vec.c70_distinct",
    "Voss.Vec.c70_size_partial",
    "Voss.Vec.c70_size_violated",
    "Voss.Vec.c70_huge_violated",
    "Voss.Vec.c70_index",
    "Voss.Vec.c70_size_total_partial"
   ],
   "note": "c70_readback, c70_fixpoint and c70_distinct hold for all strings; c70_bits, c70_order and c70_rows for indices strictly inside the range of int. The size is wrong for the string 0b only (c70_size_violated). Overflow of merge_indices at the ends of int is not modelled."
  },
  {
   "property": "C71",
   "status": "partial",
   "theorems": [
    "Voss.Vec.c71_bits_partial",
    "Voss.Vec.c71_order_partial",
    "Voss.Vec.c71_total_partial",
    "Voss.Vec.c71_order_violated",
    "Voss.Vec.c71_asterisk_violated",
    "Voss.Vec.c71_prefix_violated",
    "Voss.Vec.c71_buffer_violated"
   ],
   "note": "Proved for constants and names of vectors without asterisks that do not begin with 0b; order for one index group. The excluded cases are the _violated theorems. merge_vectors (contiguous output) is not modelled."
  },
  {
   "property": "C72",
   "status": "partial",
   "theorems": [
    "Voss.Vec.c72_bits_partial",
    "Voss.Vec.c72_total_partial",
    "Voss.Vec.c72_gap_violated",
    "Voss.Vec.c72_repeat_violated",
    "Voss.Vec.c72_keeps_partial"
   ],
   "note": "The set of bits is kept for groups that are a single range or ranges written from the highest index down; that bits occur once is violated. qsort is a parameter that permutes its elements."
  },
  {
   "property": "C73",
   "status": "partial",
   "theorems": [
    "Voss.Node.c73_total",
    "Voss.Node.c73_node_partial",
    "Voss.Node.c73_bits_partial",
    "Voss.Node.c73_distinct_partial",
    "Voss.Node.c73_vector_partial",
    "Voss.Node.c73_formal_partial",
    "Voss.Node.c73_table",
    "Voss.Node.c73_actual_partial",
    "Voss.Node.c73_constant",
    "Voss.Node.c73_slice",
    "Voss.Node.c73_ascending_violated",
    "Voss.Node.c73_stride_violated",
    "Voss.Node.c73_formal_violated",
    "Voss.Node.c73_escaped_violated",
    "Voss.Node.c73_escaped_vector_violated",
    "Voss.Node.c73_multi_violated"
   ],
   "note": "Proved for circuits in which no bit is declared twice, names are well-formed with their hierarchy in front and have no asterisk, and index groups after the first run downwards. The excluded cases are the _violated theorems. Undeclared signals (for which the program declares a new one) are failures in the model."
  },
  {
   "property": "C74",
   "status": "partial",
   "theorems": [
    "Voss.Txt.c74_tests",
    "Voss.Txt.c74_strcmp",
    "Voss.Txt.c74_strstr",
    "Voss.Txt.c74_split_partial",
    "Voss.Txt.c74_split_join",
    "Voss.Txt.c74_split_violated",
    "Voss.Txt.c74_ends_partial",
    "Voss.Txt.c74_negative_violated",
    "Voss.Txt.c74_wide_violated",
    "Voss.Txt.c74_substr_partial",
    "Voss.Txt.c74_substr_violated",
    "Voss.Txt.c74_trim",
    "Voss.Txt.c74_gen_trim_partial",
    "Voss.Txt.c74_gen_trim_violated",
    "Voss.Txt.c74_cluster_partial",
    "Voss.Txt.c74_cluster_violated",
    "Voss.Txt.c74_implode",
    "Voss.Txt.c74_tcl_partial",
    "Voss.Txt.c74_tcl_violated"
   ],
   "note": "Proved for all strings with the numbers that have a meaning; Tcl lists with one space between elements that are bare words or in braces. The excluded cases are the _violated theorems. strstr, strcmp, strncmp and isspace are modelled after the C standard. Not covered: strcasecmp, str_match (fnmatch)."
  },
  {
   "property": "C75",
   "status": "partial",
   "theorems": [
    "Voss.Txt.c75_sound_partial",
    "Voss.Txt.c75_first_violated",
    "Voss.Txt.c75_full_violated"
   ],
   "note": "A result, if there is one, is that of the C library. But the first use has undefined behaviour, so this says nothing about a running system. regcomp and the clock are parameters."
  },
  {
   "property": "C76",
   "status": "partial",
   "theorems": [
    "Voss.Hier.c76_wires_partial",
    "Voss.Hier.c76_rename_partial",
    "Voss.Hier.c76_other",
    "Voss.Hier.c76_order_violated",
    "Voss.Hier.c76_escaped_violated",
    "Voss.Hier.c76_open_violated"
   ],
   "note": "Proved for pins whose actuals have at most one group of indices each and internals with ordinary names. The excluded cases are the _violated theorems. The sorting of vectors is a parameter (a permutation)."
  },
  {
   "property": "C77",
   "status": "partial",
   "theorems": [
    "Voss.Hier.c77_adjacent_partial",
    "Voss.Hier.c77_upward_violated",
    "Voss.Hier.c77_list_violated"
   ],
   "note": "Proved for names with one range from the highest index down in every group, and constants as inputs. Other groups are the _violated theorems."
  },
  {
   "property": "C78",
   "status": "partial",
   "theorems": [
    "Voss.Hier.c78_fold_partial",
    "Voss.Hier.c78_cross_partial",
    "Voss.Hier.c78_lost_violated",
    "Voss.Hier.c78_twice_violated",
    "Voss.Hier.c78_attrs_violated",
    "Voss.Hier.c78_undriven_violated"
   ],
   "note": "Proved for the names of C77, and for the last part of c78_cross_partial for names that are equal or have no bit in common. The rest are the _violated theorems."
  },
  {
   "property": "C79",
   "status": "proved",
   "theorems": [
    "Voss.Sha.c79_sha256",
    "Voss.Sha.c79_constants",
    "Voss.Sha.c79_pieces",
    "Voss.Sha.c79_length",
    "Voss.Sha.c79_pad",
    "Voss.Sha.c79_long_violated"
   ],
   "note": "The standard is written down in Sha/Spec.lean, with the constants as roots of primes. Texts of at least 2^64 bits are outside the standard."
  },
  {
   "property": "C80",
   "status": "partial",
   "theorems": [
    "Voss.Sha.c80_signature_partial",
    "Voss.Sha.c80_text_partial",
    "Voss.Sha.c80_addresses",
    "Voss.Sha.c80_terminates",
    "Voss.Sha.c80_newline_violated",
    "Voss.Sha.c80_long_violated",
    "Voss.Sha.c80_sharing_violated",
    "Voss.Sha.c80_ref_violated",
    "Voss.Sha.c80_bexpr_violated"
   ],
   "note": "Proved for values whose strings have no newlines and pieces of at most 4095 characters, up to the contents of references; BDDs and external objects in values are not modelled. The excluded cases are the _violated theorems."
  },
  {
   "property": "C81",
   "status": "partial",
   "theorems": [
    "Voss.Iso.c81_matrices",
    "Voss.Iso.c81_search_partial",
    "Voss.Iso.c81_fingerprint_violated",
    "Voss.Iso.c81_unwired_violated",
    "Voss.Iso.c81_direction_violated"
   ],
   "note": "Proved for circuits with wires whose fingerprints are in the range of int; wires without direction. The excluded cases are the _violated theorems. Which instances have a wire between them is C77. After the empty list the search starts again, as the theorem says. sisomatch returns nothing and is not modelled."
  },
  {
   "property": "C82",
   "status": "proved",
   "theorems": [
    "Voss.Inst.c82_structure",
    "Voss.Inst.c82_stored",
    "Voss.Inst.c82_function_violated"
   ],
   "note": "The statement is proved; c82_function_violated shows that the converse, on which the search of C81 relies when it matches by fingerprint, is false. qsort is a parameter with the contract of the C standard."
  },
  {
   "property": "C83",
   "status": "partial",
   "theorems": [
    "Voss.Inst.c83_order",
    "Voss.Inst.c83_text_partial",
    "Voss.Inst.c83_hierarchy_partial",
    "Voss.Inst.c83_space_violated",
    "Voss.Inst.c83_empty_violated"
   ],
   "note": "The order is proved for all instances. Determination is proved for names that are words (not empty, no space, newline, bracket-colon), non-empty contents and pieces of text of at most 4095 bytes; the first two restrictions are necessary, as the violations show. qsort is a parameter with the contract of the C standard; the functions of leaves are trees of pairs, numbers and strings."
  },
  {
   "property": "C84",
   "status": "partial",
   "theorems": [
    "Voss.Inst.c84_internals",
    "Voss.Inst.c84_made",
    "Voss.Inst.c84_makes",
    "Voss.Inst.c84_again",
    "Voss.Inst.c84_order_partial",
    "Voss.Inst.c84_order_violated",
    "Voss.Inst.c84_bits_violated"
   ],
   "note": "Independence of the order is proved for failures, the set of internals and the fingerprint; for the SHA it is false (c84_order_violated). At most 2147483629 instances, the limit of the hash table; an instance with one output has an actual there (otherwise the program follows a null pointer)."
  },
  {
   "property": "C85",
   "status": "partial",
   "theorems": [
    "Voss.Lp.c85_nonstrict_partial",
    "Voss.Lp.c85_strict_partial",
    "Voss.Lp.c85_values_partial",
    "Voss.Lp.c85_shape",
    "Voss.Lp.c85_rationals",
    "Voss.Lp.c85_negative_violated",
    "Voss.Lp.c85_unbounded_violated",
    "Voss.Lp.c85_notequal_violated",
    "Voss.Lp.c85_redundant_violated",
    "Voss.Lp.c85_dies_violated",
    "Voss.Lp.c85_endless_violated"
   ],
   "note": "The answer of LP is proved right whenever there is one for =, <=, >=; with < and > if the equations are independent, and then the program does not fail otherwise; the values of LPsol if all variables are said not to be negative, without strict inequalities, for independent equations. What is missing is false of the program: see the _violated theorems, each with a concrete system of constraints. That the method ends is false (c85_endless_violated)."
  },
  {
   "property": "C86",
   "status": "partial",
   "theorems": [
    "Voss.Pre.c86_param",
    "Voss.Pre.c86_param_false",
    "Voss.Pre.c86_fparam_partial",
    "Voss.Pre.c86_clash_violated",
    "Voss.Pre.c86_overlap_violated",
    "Voss.Pre.c86_constrained_partial",
    "Voss.Pre.c86_next"
   ],
   "note": "Proved in full for param. For fparam and bv_constrained_variable if the new names (with _n added) are apart from each other and from the constants; without that it is false of the program (c86_clash_violated, c86_overlap_violated)."
  },
  {
   "property": "C87",
   "status": "partial",
   "theorems": [
    "Voss.Pre.c87_forcing",
    "Voss.Pre.c87_example",
    "Voss.Pre.c87_full_partial",
    "Voss.Pre.c87_full_violated",
    "Voss.Pre.c87_enumerate_partial",
    "Voss.Pre.c87_dots_violated",
    "Voss.Pre.c87_bv_partial",
    "Voss.Pre.c87_count_violated"
   ],
   "note": "What is missing from each _partial theorem is false of the program and shown by a _violated theorem: full_example of an unsatisfiable condition, \"...\" after a complete list, and one example more than asked for."
  },
  {
   "property": "C88",
   "status": "partial",
   "theorems": [
    "Voss.Pre.c88_range",
    "Voss.Pre.c88_max_min_partial",
    "Voss.Pre.c88_mixed_violated",
    "Voss.Pre.c88_mutex_partial",
    "Voss.Pre.c88_mutex_violated"
   ],
   "note": "bv_range is proved in full. bv_max and bv_min if the sign does not change, and mutex with the first bit as a sign; the rest is false of the program (c88_mixed_violated, c88_mutex_violated)."
  },
  {
   "property": "C89",
   "status": "partial",
   "theorems": [
    "Voss.Pre.c89_pow",
    "Voss.Pre.c89_shift",
    "Voss.Pre.c89_gcd",
    "Voss.Pre.c89_reduce_partial",
    "Voss.Pre.c89_reduce_violated",
    "Voss.Pre.c89_reduce_constant_violated",
    "Voss.Pre.c89_reduce_negative_violated",
    "Voss.Pre.c89_bev_pow_violated"
   ],
   "note": "Everything but bv_reduce and bev_pow is proved in full. For bv_reduce the exact condition under which it is right is proved; in the other cases it is false of the program."
  },
  {
   "property": "C90",
   "status": "partial",
   "theorems": [
    "Voss.Para.c90_all_partial",
    "Voss.Para.c90_limit",
    "Voss.Para.c90_winner_partial",
    "Voss.Para.c90_winner_violated",
    "Voss.Para.c90_none_violated",
    "Voss.Para.c90_junk_violated",
    "Voss.Para.c90_zero_violated"
   ],
   "note": "Proved if the uninitialised status never looks like an exit code other than 0 and max_processes is positive, with single_winner for one process at a time; the rest is false of the program."
  },
  {
   "property": "C91",
   "status": "partial",
   "theorems": [
    "Voss.Pre.c91_log2",
    "Voss.Pre.c91_pow_partial",
    "Voss.Pre.c91_bvpow_partial",
    "Voss.Pre.c91_bvpow_violated",
    "Voss.Pre.c91_bl2int",
    "Voss.Pre.c91_int2bl_partial",
    "Voss.Pre.c91_int2bl_violated",
    "Voss.Pre.c91_sbits",
    "Voss.Pre.c91_ubits",
    "Voss.Pre.c91_nearest",
    "Voss.Pre.c91_random",
    "Voss.Pre.c91_random_fair",
    "Voss.Pre.c91_iset_make",
    "Voss.Pre.c91_iset_list",
    "Voss.Pre.c91_iset_ops",
    "Voss.Pre.c91_imem_fails",
    "Voss.Pre.c91_primes",
    "Voss.Pre.c91_factor",
    "Voss.Pre.c91_factorial"
   ],
   "note": "** on integers for exponents of less than 129998 binary digits (the limit of sprintf), ** on bit-vectors if the exponent is never negative, int2bl for numbers that fit; the rest of these is false of the program. Everything else is proved in full."
  },
  {
   "property": "C92",
   "status": "proved",
   "theorems": [
    "Voss.Pre.c92_early"
   ],
   "note": "Called outside of symbolic conditionals (inside, assignments to references merge old and new values)."
  },
  {
   "property": "C93",
   "status": "partial",
   "theorems": [
    "Voss.Vlib.c93_make",
    "Voss.Vlib.c93_ring",
    "Voss.Vlib.c93_div_partial",
    "Voss.Vlib.c93_form_violated",
    "Voss.Vlib.c93_zero_violated",
    "Voss.Vlib.c93_eq",
    "Voss.Vlib.c93_floor",
    "Voss.Vlib.c93_decimal",
    "Voss.Vlib.c93_integer_partial",
    "Voss.Vlib.c93_integer_violated",
    "Voss.Vlib.c93_repeat",
    "Voss.Vlib.c93_repeat_last",
    "Voss.Vlib.c93_syntax_violated"
   ],
   "note": "Missing, because false of the program: one form for the quotient by negative numbers, failure for division by 0, negative integers in str2rat, refusal of malformed text. Texts of up to 130000 digits (the limit of sprintf and sscanf)."
  },
  {
   "property": "C94",
   "status": "partial",
   "theorems": [
    "Voss.Vlib.c94_num2bv_partial",
    "Voss.Vlib.c94_negative_violated",
    "Voss.Vlib.c94_bin2unary",
    "Voss.Vlib.c94_value_partial",
    "Voss.Vlib.c94_value_violated",
    "Voss.Vlib.c94_ite",
    "Voss.Vlib.c94_add",
    "Voss.Vlib.c94_inc",
    "Voss.Vlib.c94_compare_violated",
    "Voss.Vlib.c94_compare_partial",
    "Voss.Vlib.c94_bitwise",
    "Voss.Vlib.c94_parts"
   ],
   "note": "The comparisons, negative numbers and malformed lists are false of the program; the rest is proved in full."
  },
  {
   "property": "C95",
   "status": "partial",
   "theorems": [
    "Voss.Bv.c95_arith",
    "Voss.Bv.c95_sign",
    "Voss.Bv.c95_compare",
    "Voss.Bv.c95_equal_partial",
    "Voss.Bv.c95_equal_violated",
    "Voss.Bv.c95_ints",
    "Voss.Bv.c95_constants",
    "Voss.Bv.c95_to_bdd",
    "Voss.Bv.c95_bits",
    "Voss.Bv.c95_then",
    "Voss.Bv.c95_ashr_partial",
    "Voss.Bv.c95_ashr_violated"
   ],
   "note": "Missing, because false of the program: shifts by the number of bits or more, and completeness of = (a handle comparison). Integers up to 2^21 digits of 64 bits, bev2int up to 2^33 bits. The handle of a conjunction is taken as a function of its arguments."
  },
  {
   "property": "C96",
   "status": "partial",
   "theorems": [
    "Voss.Gen.c96_int2fbv",
    "Voss.Gen.c96_fbv2int",
    "Voss.Gen.c96_round",
    "Voss.Gen.c96_add",
    "Voss.Gen.c96_sub",
    "Voss.Gen.c96_negate",
    "Voss.Gen.c96_mult",
    "Voss.Gen.c96_compare",
    "Voss.Gen.c96_bitwise",
    "Voss.Gen.c96_mux",
    "Voss.Gen.c96_abs",
    "Voss.Gen.c96_div_partial",
    "Voss.Gen.c96_div_violated",
    "Voss.Gen.c96_shift",
    "Voss.Gen.c96_ashr_partial",
    "Voss.Gen.c96_ashr_violated",
    "Voss.Gen.c96_short_violated",
    "Voss.Gen.c96_sizes"
   ],
   "note": "Missing, because false of the program: division of numbers with the top bit set (except by small divisors), arithmetic shift of negative numbers (its exact wrong result is proved), shifts of vectors of one or two bits."
  },
  {
   "property": "C97",
   "status": "partial",
   "theorems": [
    "Voss.Gen.c97_trim",
    "Voss.Gen.c97_int2dbv",
    "Voss.Gen.c97_nat2dbv",
    "Voss.Gen.c97_nat2dbv_violated",
    "Voss.Gen.c97_add",
    "Voss.Gen.c97_compare",
    "Voss.Gen.c97_bitwise",
    "Voss.Gen.c97_mux",
    "Voss.Gen.c97_mult_partial",
    "Voss.Gen.c97_mult_violated",
    "Voss.Gen.c97_div_partial",
    "Voss.Gen.c97_div_violated",
    "Voss.Gen.c97_shift_partial",
    "Voss.Gen.c97_shift_violated"
   ],
   "note": "Missing, because false of the program: products and quotients of vectors of symbolic sign (what is given is right), division with the least number of the size, the sign of the remainder, shifts of negative numbers to the right and shifts to the left that need more bits."
  },
  {
   "property": "C98",
   "status": "partial",
   "theorems": [
    "Voss.Scope.c98_scope_partial",
    "Voss.Scope.c98_live",
    "Voss.Scope.c98_constructor_violated",
    "Voss.Scope.c98_nested_violated",
    "Voss.Scope.c98_refused_violated",
    "Voss.Scope.c98_level_violated",
    "Voss.Scope.c98_stale_violated",
    "Voss.Scope.c98_export_violated",
    "Voss.Scope.c98_forward_violated",
    "Voss.Scope.c98_pattern_violated"
   ],
   "note": "Missing, because false of the program: types declared inside abstract types, names that are exported twice, lists with names that are not defined or whose newest definition is hidden in a scope inside. c98_live holds of all sessions."
  },
  {
   "property": "C99",
   "status": "partial",
   "theorems": [
    "Voss.Slist.c99_conditional",
    "Voss.Slist.c99_cons",
    "Voss.Slist.c99_append_partial",
    "Voss.Slist.c99_rev",
    "Voss.Slist.c99_length",
    "Voss.Slist.c99_last",
    "Voss.Slist.c99_el",
    "Voss.Slist.c99_map",
    "Voss.Slist.c99_filter",
    "Voss.Slist.c99_fold_partial",
    "Voss.Slist.c99_accumulate_partial",
    "Voss.Slist.c99_accumulate_violated",
    "Voss.Slist.c99_append_violated",
    "Voss.Slist.c99_convert",
    "Voss.Slist.c99_round_trip",
    "Voss.Slist.c99_guarded",
    "Voss.Slist.c99_upto"
   ],
   "note": "Missing, because false of the program: s_accumulate for lists whose length depends on variables, s_append and s_itlist with a last argument that is not evaluated. Elements are of any type for which a conditional makes the one value or the other; functions are evaluated when they are applied."
  },
  {
   "property": "C100",
   "status": "partial",
   "theorems": [
    "Voss.Sum.c100_count_partial",
    "Voss.Sum.c100_sum_partial",
    "Voss.Sum.c100_constant_violated",
    "Voss.Sum.c100_record_violated"
   ],
   "note": "Missing, because false of the program: no variables at all, and the variable whose number is in the uninitialised record 0 of the table of nodes when it comes after a free variable. The first son of record 0 is taken to be 0. bv_sum is called outside of conditionals with a symbolic condition."
  },
  {
   "property": "C101",
   "status": "partial",
   "theorems": [
    "Voss.Smat.c101_make",
    "Voss.Smat.c101_make_bv",
    "Voss.Smat.c101_make_fail",
    "Voss.Smat.c101_read",
    "Voss.Smat.c101_round_trip",
    "Voss.Smat.c101_get_partial",
    "Voss.Smat.c101_set",
    "Voss.Smat.c101_maybe_set",
    "Voss.Smat.c101_add_sub",
    "Voss.Smat.c101_scale",
    "Voss.Smat.c101_abs",
    "Voss.Smat.c101_transpose",
    "Voss.Smat.c101_mult_partial",
    "Voss.Smat.c101_mult_fail",
    "Voss.Smat.c101_outside_violated",
    "Voss.Smat.c101_negative_violated"
   ],
   "note": "Missing, because false of the program: negative indices in get_element, and products when the elements outside of both matrices are not zero. The product needs that the record of the constants (C100) does not have the number of a variable named mid. The functions are called outside of conditionals with a symbolic condition; mk_random_smatrix and printing are not modelled."
  },
  {
   "property": "C102",
   "status": "partial",
   "theorems": [
    "Voss.Lex.c102_conditionals_partial",
    "Voss.Lex.c102_lines",
    "Voss.Lex.c102_unmatched_partial",
    "Voss.Lex.c102_unmatched_endif_violated",
    "Voss.Lex.c102_unmatched_else_violated",
    "Voss.Lex.c102_open_violated",
    "Voss.Lex.c102_blank_violated",
    "Voss.Lex.c102_directives",
    "Voss.Lex.c102_skipped"
   ],
   "note": "Missing, because false of the program: blanks after names and directives, files that are not properly nested, the report of the first unmatched directive. Lines with tokens longer than a line (C103) and loads that fail are not in the model."
  },
  {
   "property": "C103",
   "status": "partial",
   "theorems": [
    "Voss.Lex.c103_literal",
    "Voss.Lex.c103_every_string",
    "Voss.Lex.c103_only",
    "Voss.Lex.c103_none",
    "Voss.Lex.c103_line_partial",
    "Voss.Lex.c103_line_violated"
   ],
   "note": "Missing, because false of the program: the line number after a literal in several parts. NUL characters are not in the model. The text after the literal does not start with a backslash and a newline in c103_literal."
  },
  {
   "property": "C104",
   "status": "partial",
   "theorems": [
    "Voss.Plist.c104_ranges",
    "Voss.Plist.c104_zip",
    "Voss.Plist.c104_unzip",
    "Voss.Plist.c104_maps",
    "Voss.Plist.c104_map_index",
    "Voss.Plist.c104_folds",
    "Voss.Plist.c104_atmost",
    "Voss.Plist.c104_split",
    "Voss.Plist.c104_cluster",
    "Voss.Plist.c104_interleave",
    "Voss.Plist.c104_transpose_partial",
    "Voss.Plist.c104_transpose_fail",
    "Voss.Plist.c104_transpose_violated",
    "Voss.Plist.c104_list2str"
   ],
   "note": "Missing, because false of the program: transpose of rows of different lengths and of the empty matrix. The values are completely evaluated results of finite lists; map5, map6 and zip3 to zip8 are not modelled. The builtins on lists are those of C66."
  },
  {
   "property": "C105",
   "status": "partial",
   "theorems": [
    "Voss.Ugen.c105_integers_partial",
    "Voss.Ugen.c105_zero_violated",
    "Voss.Ugen.c105_fit_violated",
    "Voss.Ugen.c105_bv2int",
    "Voss.Ugen.c105_fixed",
    "Voss.Ugen.c105_compare",
    "Voss.Ugen.c105_bitwise",
    "Voss.Ugen.c105_div_partial",
    "Voss.Ugen.c105_div_violated",
    "Voss.Ugen.c105_shift",
    "Voss.Ugen.c105_ashr_partial",
    "Voss.Ugen.c105_ashr_violated",
    "Voss.Ugen.c105_dyn_partial",
    "Voss.Ugen.c105_dyn_violated",
    "Voss.Ugen.c105_dyncompare",
    "Voss.Ugen.c105_greater_violated",
    "Voss.Ugen.c105_dynbitwise_partial",
    "Voss.Ugen.c105_dynbitwise_violated",
    "Voss.Ugen.c105_dyndiv_partial",
    "Voss.Ugen.c105_dynshift_partial",
    "Voss.Ugen.c105_dynshift_violated",
    "Voss.Ugen.c105_lengths"
   ],
   "note": "Missing, because false of the program: results that need the top bit, in division of fixed size and in all functions of any size but the comparisons and the product; the vector of 0; the refusal of numbers that do not fit; the arithmetic shift if the top bit is 1. Division by 0, and the negation of a vector of any size, are not described."
  },
  {
   "property": "C106",
   "status": "partial",
   "theorems": [
    "Voss.Pretty.c106_total",
    "Voss.Pretty.c106_texts",
    "Voss.Pretty.c106_layout_partial",
    "Voss.Pretty.c106_plus_violated",
    "Voss.Pretty.c106_indent_partial",
    "Voss.Pretty.c106_indent_violated",
    "Voss.Pretty.c106_fits",
    "Voss.Pretty.c106_first_line"
   ],
   "note": "Missing, because false of the program: the indentation of lines at column 0 or to the left of it, and $+$ after vcat. That sep uses one line whenever it fits is proved for texts only. The first text of a line is cut after 16383 bytes (error.c:221); this, and columns beyond the range of int, are not described."
  },
  {
   "property": "C107",
   "status": "partial",
   "theorems": [
    "Voss.Gmin.c107_minimum",
    "Voss.Gmin.c107_maximum",
    "Voss.Gmin.c107_bexpr_partial",
    "Voss.Gmin.c107_bexpr_violated",
    "Voss.Gmin.c107_unsigned_partial",
    "Voss.Gmin.c107_unsigned_violated"
   ],
   "note": "The version for Boolean functions is proved in full. Missing, because false of the program: vectors of expressions with negative values, and vectors without sign whose first digit depends on a variable. The conversion of expressions to BDDs is not described."
  },
  {
   "property": "C108",
   "status": "partial",
   "theorems": [
    "Voss.Misc.c108_split_at",
    "Voss.Misc.c108_chunks_partial",
    "Voss.Misc.c108_chunks_violated",
    "Voss.Misc.c108_split_into",
    "Voss.Misc.c108_remove_partial",
    "Voss.Misc.c108_remove_violated",
    "Voss.Misc.c108_group",
    "Voss.Misc.c108_group_unique",
    "Voss.Misc.c108_hist",
    "Voss.Misc.c108_permutations",
    "Voss.Misc.c108_rotations",
    "Voss.Misc.c108_find",
    "Voss.Misc.c108_map_some",
    "Voss.Misc.c108_index",
    "Voss.Misc.c108_one_of",
    "Voss.Misc.c108_weighted",
    "Voss.Misc.c108_some_of"
   ],
   "note": "Missing, because false of the program: chunks of a length below 1, and places before the first one. The random numbers are any numbers that random of a range can give; that they are equally likely is not described. hist takes any sort that sorts."
  },
  {
   "property": "C109",
   "status": "partial",
   "theorems": [
    "Voss.Vset.c109_intersect_partial",
    "Voss.Vset.c109_overlap_partial",
    "Voss.Vset.c109_subtract_partial",
    "Voss.Vset.c109_sound",
    "Voss.Vset.c109_intersect_of",
    "Voss.Vset.c109_overlap_of",
    "Voss.Vset.c109_subtract_of",
    "Voss.Vset.c109_subtract_violated",
    "Voss.Vset.c109_constant_violated",
    "Voss.Vset.c109_zip_whole_partial",
    "Voss.Vset.c109_zip_partial",
    "Voss.Vset.c109_zip_repeat_violated",
    "Voss.Vset.c109_zip_violated"
   ],
   "note": "Proved for names that are not constants, as far as extraction is exact (C72). Missing, because false of the program: constants, vec_subtract when names of the first list share bits, vec_zip of vectors with several groups or repeated indices. c109_zip_whole_partial holds for all other names and constants, but does not say that vec_zip answers; c109_zip_partial says what is left if indices are repeated."
  },
  {
   "property": "C110",
   "status": "partial",
   "theorems": [
    "Voss.Bvstr.c110_value_partial",
    "Voss.Bvstr.c110_undefined",
    "Voss.Bvstr.c110_symbolic_partial",
    "Voss.Bvstr.c110_value_violated",
    "Voss.Bvstr.c110_empty_violated",
    "Voss.Bvstr.c110_long_violated"
   ],
   "note": "Proved for constant vectors of at most 30 bits, or below 2^31 with the sign bit clear, that are not empty and have at most 2000 bits; and for vectors with a symbolic bit. c110_undefined says exactly which constant vectors are printed by an undefined computation. Missing, because false of the program: longer vectors and the empty vector. How a function is printed is a parameter."
  },
  {
   "property": "C111",
   "status": "proved",
   "theorems": [
    "Voss.Pline.c111_sheet",
    "Voss.Pline.c111_over",
    "Voss.Pline.c111_plain",
    "Voss.Pline.c111_broken"
   ],
   "note": "Allocation succeeds; columns are unbounded instead of C integers; the message for moving left of the first column is left out."
  },
  {
   "property": "C112",
   "status": "partial",
   "theorems": [
    "Voss.Fops.c112_write",
    "Voss.Fops.c112_result",
    "Voss.Fops.c112_roundtrip_partial",
    "Voss.Fops.c112_short",
    "Voss.Fops.c112_long_violated",
    "Voss.Fops.c112_fail_violated"
   ],
   "note": "Proved for records of at most 1024 bytes and reads that do not fail for ever. Missing, because false of the program: longer records. Calls of write are taken to write everything (the program only warns). The assertion about the size of the previous buffer is left out. Writing is used by emit.c; nothing in the program reads."
  },
  {
   "property": "C113",
   "status": "partial",
   "theorems": [
    "Voss.Plugin.c113_accept",
    "Voss.Plugin.c113_register",
    "Voss.Plugin.c113_null_violated",
    "Voss.Plugin.c113_errors",
    "Voss.Plugin.c113_errors_violated"
   ],
   "note": "c113_accept and c113_register hold for all descriptions, where following a null pointer counts as neither adding nor refusing. Missing, because false of the program: a report for every function without a type or strictness, and reports within the buffer. The checks on types and on the plugin itself are not modelled."
  },
  {
   "property": "C114",
   "status": "partial",
   "theorems": [
    "Voss.Fixed.c114_extend",
    "Voss.Fixed.c114_truncate",
    "Voss.Fixed.c114_refuse",
    "Voss.Fixed.c114_negative_violated"
   ],
   "note": "For vectors of fewer than 2^31 bits. Missing, because false of the program: truncation to a negative size."
  },
  {
   "property": "C115",
   "status": "partial",
   "theorems": [
    "Voss.Vset.c115_assoc_partial",
    "Voss.Vset.c115_rev_partial",
    "Voss.Vset.c115_matrix_violated",
    "Voss.Vset.c115_size_violated"
   ],
   "note": "For pairs of equal size whose replacing names are constants or have at most one index group. Not proved: when there is an answer. Missing, because false of the program: the order for names with several groups, the refusal of pairs of different sizes."
  },
  {
   "property": "C116",
   "status": "partial",
   "theorems": [
    "Voss.Smt.c116_sound",
    "Voss.Smt.c116_slice",
    "Voss.Smt.c116_ite_violated",
    "Voss.Smt.c116_and_violated"
   ],
   "note": "For the connectives, comparisons, one arithmetic operation whose meaning is the solver's, conditionals, constants and variables. Not modelled: extensions, concatenation, W_PRED, the text. Missing, because false of the program: that the assertions are well-sorted."
  }
 ]
}