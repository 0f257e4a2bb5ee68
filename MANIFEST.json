{
 "claims": [
  {
   "property": "C01",
   "status": "proved",
   "theorems": [
    "Int63.C01_add",
    "Int63.C01_sub",
    "Int63.C01_mul"
   ],
   "note": "runtime/prim_int63.c add/sub/mul against arithmetic modulo 2^63, all operands."
  },
  {
   "property": "C02",
   "status": "proved",
   "theorems": [
    "Int63.C02_div",
    "Int63.C02_mod"
   ],
   "note": "Unsigned division and remainder including the zero divisor; no C undefined behaviour is reached."
  },
  {
   "property": "C03",
   "status": "proved",
   "theorems": [
    "Int63.C03_land",
    "Int63.C03_lor",
    "Int63.C03_lxor",
    "Int63.C03_lsl",
    "Int63.C03_lsr"
   ],
   "note": "Bitwise operations and logical shifts, including shift amounts of 63 and more."
  },
  {
   "property": "C04",
   "status": "partial",
   "theorems": [
    "Int63.C04_eqb",
    "Int63.C04_compare",
    "Int63.C04_ltb_refuted",
    "Int63.C04_leb_refuted",
    "Int63.C04_ltb_is_signed",
    "Int63.C04_leb_is_signed",
    "Int63.C04_ltb_partial",
    "Int63.C04_leb_partial",
    "Int63.C04_ltb_wrong_iff"
   ],
   "note": "eqb and compare proved. ltb and leb are refuted (C04_ltb_refuted, C04_leb_refuted): the C code compares signed tagged words. _partial theorems cover operands with equal bit 62; C04_ltb_wrong_iff says exactly when ltb is wrong."
  },
  {
   "property": "C05",
   "status": "partial",
   "theorems": [
    "Int63.C05_ltsb",
    "Int63.C05_lesb",
    "Int63.C05_compares",
    "Int63.C05_divs",
    "Int63.C05_mods_refuted",
    "Int63.C05_mods_partial",
    "Int63.C05_asr_refuted",
    "Int63.C05_asr_partial",
    "Int63.C05_asr_is_lsr"
   ],
   "note": "ltsb, lesb, compares, divs proved. mods and asr refuted: the C code uses the unsigned remainder and a logical shift. _partial theorems cover non-negative operands."
  },
  {
   "property": "C06",
   "status": "partial",
   "theorems": [
    "Int63.C06_addc_refuted",
    "Int63.C06_addcarryc_refuted",
    "Int63.C06_subc_refuted",
    "Int63.C06_subcarryc_refuted",
    "Int63.C06_addc_never_carries",
    "Int63.C06_addc_partial",
    "Int63.C06_addcarryc_partial",
    "Int63.C06_subc_partial",
    "Int63.C06_subcarryc_partial"
   ],
   "note": "All four carry operations are refuted by concrete witnesses; addc never reports a carry. _partial theorems give the ranges in which the answers are right."
  },
  {
   "property": "C07",
   "status": "partial",
   "theorems": [
    "Int63.C07_mulc_refuted",
    "Int63.C07_mulc_partial",
    "Int63.C07_diveucl",
    "Int63.C07_diveucl21",
    "Int63.C07_addmuldiv"
   ],
   "note": "diveucl, diveucl21 (63-step loop, by invariant) and addmuldiv proved for all operands. mulc refuted: a carry is lost when both operands have bit 62; C07_mulc_partial covers all other operands."
  },
  {
   "property": "C08",
   "status": "proved",
   "theorems": [
    "Int63.C08_head0",
    "Int63.C08_tail0"
   ],
   "note": "head0 and tail0 for all operands."
  },
  {
   "property": "C09",
   "status": "proved",
   "theorems": [
    "Wasm.C09_add",
    "Wasm.C09_sub",
    "Wasm.C09_mul",
    "Wasm.C09_land",
    "Wasm.C09_lor",
    "Wasm.C09_lxor",
    "Wasm.C09_head0",
    "Wasm.C09_div",
    "Wasm.C09_mod",
    "Wasm.C09_lsl",
    "Wasm.C09_lsr",
    "Wasm.C09_tail0",
    "Wasm.C09_addmuldiv",
    "Wasm.C09_eqb",
    "Wasm.C09_ltb",
    "Wasm.C09_leb",
    "Wasm.C09_compare",
    "Wasm.C09_addc",
    "Wasm.C09_addcarryc",
    "Wasm.C09_subc",
    "Wasm.C09_subcarryc",
    "Wasm.C09_mulc",
    "Wasm.C09_diveucl",
    "Wasm.C09_diveucl21"
   ],
   "note": "Every int63 primitive the Wasm backend translates, as the emitted instruction list run by the Wasm semantics of Verif/Wasm/Sem.lean: the value pushed represents the Uint63 result, memory below the allocation pointer, locals and the result and out-of-memory globals are unchanged, and at most 28 of the 52 reserved bytes are used."
  },
  {
   "property": "C10",
   "status": "proved",
   "theorems": [
    "Int63.C10_untag_unsigned",
    "Int63.C10_untag_signed",
    "Int63.C10_tag",
    "Int63.C10_word_injective",
    "Int63.C10_tagged_is_long",
    "Int63.C10_pointer_is_block",
    "Int63.C10_word_surjective"
   ],
   "note": "Tagging and untagging of 63-bit integers; tagged words and aligned pointers are told apart by bit 0."
  },
  {
   "property": "C11",
   "status": "proved",
   "theorems": [
    "GC.C11_garbage_collect",
    "GC.C11_do_generation"
   ],
   "note": "Whole garbage_collect loop and single do_generation, any DEPTH, any number of generations, remembered sets included; SameGraph = injective renaming preserving headers, fields, sharing. Assumes malloc returns regions disjoint from existing ones."
  },
  {
   "property": "C12",
   "status": "proved",
   "theorems": [
    "GC.C12_space",
    "GC.C12_abort",
    "GC.C12_too_big"
   ],
   "note": "Space available after a return; exact reasons for an abort; oversized requests are refused."
  },
  {
   "property": "C13",
   "status": "proved",
   "theorems": [
    "GC.C13_no_stray_writes"
   ],
   "note": "Write set of do_generation, copied data stays below the limit even with remembered-set growth, every block copied at most once."
  },
  {
   "property": "C14",
   "status": "proved",
   "theorems": [
    "GC.C14_raw_blocks"
   ],
   "note": "Raw blocks reachable from a root keep header and payload bit for bit; inner raw blocks are covered by SameGraph in C11."
  },
  {
   "property": "C15",
   "status": "partial",
   "theorems": [
    "GC.C15_write_barrier_partial",
    "GC.C15_refuted"
   ],
   "note": "Refuted (C15_refuted): certirocq_modify records the cell only in the nursery's remembered set, and forward_remset drops entries that do not point into the nursery, so an old-to-middle-generation pointer is lost. C15_write_barrier_partial covers values in the nursery or not younger than the mutated block."
  },
  {
   "property": "C16",
   "status": "partial",
   "theorems": [
    "GC.C16_invariant_partial",
    "GC.C16_pure_programs",
    "GC.C16_refuted"
   ],
   "note": "Invariant by induction over histories of allocation, mutation, frame changes and collections from make_tinfo; C16_pure_programs needs no restriction for programs that store no heap pointers by mutation. Unrestricted mutation is refuted (C16_refuted)."
  },
  {
   "property": "C17",
   "status": "partial",
   "theorems": [
    "GC.C17_reset_partial",
    "GC.C17_refuted"
   ],
   "note": "reset_heap keeps lowered limits, i.e. stale remembered-set entries (C17_refuted); C17_reset_partial covers heaps without entries."
  },
  {
   "property": "C18",
   "status": "proved",
   "theorems": [
    "RT.C18_literal",
    "RT.C18_length",
    "RT.C18_header",
    "RT.C18_injective"
   ],
   "note": "Words emitted for string literals (encode_list, length padding, header) read back as the source bytes, their length and an injective encoding; all byte strings."
  },
  {
   "property": "C19",
   "status": "partial",
   "theorems": [
    "RT.C19_get_partial",
    "RT.C19_get_refuted",
    "RT.C19_compare_refuted",
    "RT.C19_compare_lengths_refuted",
    "RT.C19_compare_partial",
    "RT.C19_mk_ocaml_string",
    "RT.C19_mk_ocaml_string_long_refuted",
    "RT.C19_body_partial",
    "RT.C19_body_overlap",
    "RT.C19_body_refuted",
    "RT.C19_make_refuted",
    "RT.C19_sub_refuted",
    "RT.C19_cat_partial",
    "RT.C19_collect_refuted"
   ],
   "note": "mk_ocaml_string proved below 2^25-8 bytes, cat partial. get (bytes >= 128), compare, make, sub, the shared allocation tail, over-long strings and cat when memory is collected are refuted; _partial theorems give the conditions under which the primitives are right."
  },
  {
   "property": "C20",
   "status": "partial",
   "theorems": [
    "CFloat.C20_next_up",
    "CFloat.C20_next_up_top",
    "CFloat.C20_next_down",
    "CFloat.C20_next_down_bottom",
    "CFloat.C20_classify",
    "CFloat.C20_ltb",
    "CFloat.C20_eqb",
    "CFloat.C20_leb",
    "CFloat.C20_equal",
    "CFloat.C20_compare_refuted",
    "CFloat.C20_compare_ignores_values",
    "CFloat.C20_compare_partial",
    "CFloat.C20_abs",
    "CFloat.C20_abs_value",
    "CFloat.C20_frshiftexp",
    "CFloat.C20_frshiftexp_special",
    "CFloat.C20_normfr_mantissa",
    "CFloat.C20_normfr_mantissa_other",
    "CFloat.C20_ldshiftexp_refuted",
    "CFloat.C20_of_uint63_refuted",
    "CFloat.C20_of_uint63_partial"
   ],
   "note": "next_up/next_down, classify, ltb, eqb, leb, equal, abs, frshiftexp, normfr_mantissa proved bit-exactly for all 2^64 patterns. compare, ldshiftexp and of_uint63 refuted. sqrt and the rounding arithmetic delegate to the C compiler's IEEE operations and are not modelled."
  },
  {
   "property": "C21",
   "status": "partial",
   "theorems": [
    "Gmp.C21_mpz_of_value_partial",
    "Gmp.C21_mpz_of_value_refuted",
    "Gmp.C21_succ",
    "Gmp.C21_pred_partial",
    "Gmp.C21_pred_refuted",
    "Gmp.C21_is_zero",
    "Gmp.C21_nat_pred",
    "Gmp.C21_abs_partial",
    "Gmp.C21_abs_refuted",
    "Gmp.C21_neg_partial",
    "Gmp.C21_neg_refuted",
    "Gmp.C21_add_partial",
    "Gmp.C21_add_refuted",
    "Gmp.C21_sub_partial",
    "Gmp.C21_sub_big_partial",
    "Gmp.C21_mul_partial",
    "Gmp.C21_mul_refuted",
    "Gmp.C21_div_partial",
    "Gmp.C21_div_refuted",
    "Gmp.C21_rem_partial",
    "Gmp.C21_rem_refuted",
    "Gmp.C21_pow_partial",
    "Gmp.C21_lognot",
    "Gmp.C21_equal_partial",
    "Gmp.C21_geq_partial",
    "Gmp.C21_gt_partial",
    "Gmp.C21_lt_partial",
    "Gmp.C21_leq_partial",
    "Gmp.C21_leq_refuted",
    "Gmp.C21_compare_partial",
    "Gmp.C21_compare_refuted",
    "Gmp.C21_max_partial",
    "Gmp.C21_max_refuted"
   ],
   "note": "GMP-backed operations against integer arithmetic, GMP calls taken to be exact. Many entries refuted by witnesses (see DESIGN section 5); _partial theorems give the conditions under which they are right."
  },
  {
   "property": "C22",
   "status": "partial",
   "theorems": [
    "RT.C22_string_of_coq_string",
    "RT.C22_round_trip",
    "RT.C22_malloc_failure_refuted"
   ],
   "note": "string_of_coq_string proved, with round trip, for all byte strings; refuted when malloc fails (null is dereferenced)."
  },
  {
   "property": "C23",
   "status": "partial",
   "theorems": [
    "Ctor.C23_ordinals_agree",
    "Ctor.C23_distinct_partial",
    "Ctor.C23_overflow_refuted",
    "Ctor.C23_scanned_partial",
    "Ctor.C23_noscan_refuted",
    "Ctor.C23_same_value",
    "Ctor.C23_reorder_refuted"
   ],
   "note": "Ordinals of compiler and glue agree (C23_ordinals_agree), both build the same value (C23_same_value), shapes of distinct constructors differ for at most 256 constructors with arguments; the collector scans blocks for at most 251. Refuted beyond: C23_overflow_refuted (257), C23_noscan_refuted (252); C23_reorder_refuted: an Extract Inductives mapping is applied by the compiler but not by the glue generator."
  },
  {
   "property": "C24",
   "status": "partial",
   "theorems": [
    "CGen.C24_compiles",
    "CGen.C24_ctors",
    "CGen.C24_match_partial",
    "CGen.C24_projection",
    "CGen.C24_returns_partial",
    "CGen.C24_diverges_partial",
    "CGen.C24_match_refuted",
    "CGen.C24_arguments_refuted"
   ],
   "note": "Compiled programs return representations of the source results, for every collector satisfying GcOk (C24_returns_partial, C24_diverges_partial); match and projection separately. Partial because of types with more than 251 constructors with arguments (C24_match_refuted), functions with more than 1024 parameters (C24_arguments_refuted), and float/string literals (C25)."
  },
  {
   "property": "C25",
   "status": "partial",
   "theorems": [
    "CGen.C25_reserved_partial",
    "CGen.C25_no_overflow_partial",
    "CGen.C25_check",
    "CGen.C25_literal_refuted"
   ],
   "note": "No store outside the reserved words for programs without float/string literals; refuted with them (C25_literal_refuted): max_allocs ignores literals."
  },
  {
   "property": "C26",
   "status": "proved",
   "theorems": [
    "CGen.C26_slots",
    "CGen.C26_live"
   ],
   "note": "C26_slots: static, all paths. C26_live: around every call and allocating primitive, for every moving collector satisfying GcOk; used by the whole-program theorem C24_returns_partial."
  },
  {
   "property": "C27",
   "status": "partial",
   "theorems": [
    "Ctor.C27_unboxed",
    "Ctor.C27_boxed_partial",
    "Ctor.C27_alloc_partial",
    "Ctor.C27_compiled_partial",
    "Ctor.C27_overflow_refuted",
    "Ctor.C27_names",
    "Ctor.C27_names_size"
   ],
   "note": "get_tag after make_/alloc_make_/compiled construction is the constructor's index, arguments are read back, names table rows are the names. Bounds: at most 256 constructors with arguments (C27_overflow_refuted otherwise)."
  },
  {
   "property": "C28",
   "status": "partial",
   "theorems": [
    "Ctor.C28_refuted",
    "Ctor.C28_ctor_refuted",
    "Ctor.C28_partial",
    "Ctor.C28_ctor_partial"
   ],
   "note": "Refuted in general (C28_refuted, C28_ctor_refuted). C28_partial/C28_ctor_partial: names without underscores are told apart by their components."
  },
  {
   "property": "C29",
   "status": "proved",
   "theorems": [
    "Wasm.C29_ordinals",
    "Wasm.C29_ordinals_record",
    "Wasm.C29_repository_assumption_refuted",
    "Wasm.C29_words_apart",
    "Wasm.C29_parity",
    "Wasm.C29_dispatch",
    "Wasm.C29_block",
    "Wasm.C29_project",
    "Wasm.C29_result"
   ],
   "note": "whole backend (LambdaANF_to_Wasm.v) over a Wasm interpreter: result of the module represents the value of the program (or genuine out-of-memory), dispatch, block layout and projection theorems; constructor environments of convert_env meet the hypothesis"
  },
  {
   "property": "C30",
   "status": "proved",
   "theorems": [
    "Wasm.C30_no_trap",
    "Wasm.C30_diverges",
    "Wasm.C30_reserve"
   ],
   "note": "no trap for programs that do not go wrong, divergence preserved, page reserved by the grow check for any position of the allocation pointer; out-of-memory flag only if the engine refused to grow"
  },
  {
   "property": "C31",
   "status": "proved",
   "theorems": [
    "Wasm.C31_accepts_iff",
    "Wasm.C31_rejects",
    "Wasm.C31_no_module"
   ],
   "note": "accepts iff every subexpression is within the limits"
  },
  {
   "property": "C32",
   "status": "partial",
   "theorems": [
    "Src.C32_linked_value",
    "Src.C32_link_partial",
    "Src.C32_data",
    "Src.C32_terminates_iff",
    "Src.C32_closed",
    "Src.C32_unused_constant_refuted",
    "Src.C32_diverging_constant_refuted"
   ],
   "note": "Both directions, for well-formed environments whose constants are not registered primitives; the direction from the main term to the linked program needs every constant to evaluate (without it: refuted, eager lets)."
  },
  {
   "property": "C33",
   "status": "proved",
   "theorems": [
    "Conv.C33_environments",
    "Conv.C33_outcomes",
    "Src.C33_deterministic",
    "Src.C33_interpreter_exact",
    "Src.C33_more_fuel",
    "Src.C33_values_final",
    "Src.C33_closed"
   ],
   "note": "Relation of expression.v against its fuelled interpreter, all expressions; agreement with the environment semantics; every program has exactly one of value, error, divergence."
  },
  {
   "property": "C34",
   "status": "partial",
   "theorems": [
    "Conv.C34_total",
    "Conv.C34_data_partial",
    "Conv.C34_returns_partial",
    "Conv.C34_diverges_partial",
    "Conv.C34_converse_partial",
    "Conv.C34_erased_application_refuted"
   ],
   "note": "Data, returns, divergence and the converse for closed programs that use constructors as declared and never apply an erased proof (AppliesProof); conversion is total. C34_erased_application_refuted: an applied erased proof gets stuck. Primitive operations: C58."
  },
  {
   "property": "C35",
   "status": "partial",
   "theorems": [
    "Conv.Cps.C35_total",
    "Conv.Cps.C35_data_partial",
    "Conv.Cps.C35_returns_partial",
    "Conv.Cps.C35_diverges_partial",
    "Conv.Cps.C35_converse_partial",
    "Conv.Cps.C35_erased_application_refuted"
   ],
   "note": "Data, returns, divergence and the converse (including: never goes wrong) for closed programs that use constructors as declared and never apply an erased proof; conversion is total. C35_erased_application_refuted: an applied erased proof goes wrong. Primitive operations: C58."
  },
  {
   "property": "C36",
   "status": "proved",
   "theorems": [
    "ANF.C36_preserves",
    "ANF.C36_data",
    "ANF.C36_closed",
    "ANF.C36_wellformed",
    "ANF.C36_hoist"
   ],
   "note": "closure conversion modelled as written (free-variable record, closed bundles as global functions, partial projections); hypotheses: closed program, distinct binders below the next fresh variable, case tags below the next tag and different from the closure tag (15, below every user tag). C36_hoist composes it with hoisting"
  },
  {
   "property": "C37",
   "status": "proved",
   "theorems": [
    "ANF.C37_flat",
    "ANF.C37_preserves",
    "ANF.C37_data",
    "ANF.C37_binders",
    "ANF.C37_closed",
    "ANF.C37_open_refuted"
   ],
   "note": "hoisting modelled as written (continuation style erase_fundefs); bundles may refer to functions of enclosing bundles only, which is what closure conversion establishes (C36_closed), and this is shown necessary"
  },
  {
   "property": "C38",
   "status": "proved",
   "theorems": [
    "ANF.C38_preserves",
    "ANF.C38_data",
    "ANF.C38_total"
   ],
   "note": "uncurry_proto.v (the version run by the pipeline) modelled as written, for ANF and CPS programs; holds for every program, with no hypothesis on binders. C38_total: the pass fails only when the counter is not above the program's variables. The property is stated for the traversal that tactics generate; that traversal is read off the rewriter framework (Prototype.v)"
  },
  {
   "property": "C39",
   "status": "proved",
   "theorems": [
    "ANF.C39_any_heuristic",
    "ANF.C39_data",
    "ANF.C39_uncurry",
    "ANF.C39_lifted"
   ],
   "note": "Any heuristic, state, depth and counter; closed programs with distinct binders (C43_* show the passes keep both). InlineSmall, InlinedUncurriedMarked, their combination and InineLifted are modelled as instances."
  },
  {
   "property": "C40",
   "status": "partial",
   "theorems": [
    "ANF.C40_any_decision",
    "ANF.C40_preserves",
    "ANF.C40_data",
    "ANF.C40_total",
    "ANF.C40_limit_partial",
    "ANF.C40_limit_refuted"
   ],
   "note": "Preservation proved for every closed program with distinct binders, every decision procedure and all limits (C40_any_decision, C40_preserves, C40_data), with totality (C40_total). The argument limit is refuted (C40_limit_refuted): fundefs_max_params always returns 0; what holds is C40_limit_partial."
  },
  {
   "property": "C41",
   "status": "proved",
   "theorems": [
    "ANF.C41_shrink",
    "ANF.C41_data",
    "ANF.C41_size",
    "ANF.C41_times",
    "ANF.C41_loop"
   ],
   "note": "shrink_cps.v modelled as written (contract with its measure as fuel, census, pre/postcontractfun, contractcases, shrink_top, shrink_n_times) and the inline/shrink loop. Closed programs with distinct binders; totality (the fuel never runs out) is part of C41_shrink. The census bounds the uses from above, which is what the proof shows the reducer needs."
  },
  {
   "property": "C42",
   "status": "proved",
   "theorems": [
    "ANF.C42_preserves",
    "ANF.C42_data",
    "ANF.C42_params"
   ],
   "note": "analysis (fixpoint with the fuel of the code) and elimination modelled; distinct binders is the invariant of the pipeline"
  },
  {
   "property": "C43",
   "status": "partial",
   "theorems": [
    "ANF.C43_dpe",
    "ANF.C43_inline",
    "ANF.C43_lambda_lift",
    "ANF.C43_shrink",
    "ANF.C43_loop",
    "ANF.C43_uncurry",
    "Conv.Cps.C43_cps_conversion_partial",
    "Conv.Cps.C43_cps_refuted",
    "Conv.C43_anf_conversion",
    "Conv.C43_anf_tags"
   ],
   "note": "ANF conversion, uncurrying (C43_uncurry), inlining (C43_inline), shrink reduction (C43_shrink, C43_loop), lambda lifting (C43_lambda_lift), closure conversion and hoisting (C36_*, C37_*), dead parameter elimination (C43_dpe) and the whole pipeline (C46_total, C46_compile_total) are covered. CPS conversion: closed, fresh and distinct but for the top continuation (C43_cps_conversion_partial), which is always bound twice (C43_cps_refuted); the first shrink reduction removes the repetition (shrink_whole, used by C46_compile_total)."
  },
  {
   "property": "C44",
   "status": "proved",
   "theorems": [
    "ANF.C44_deterministic",
    "ANF.C44_finished_iff",
    "ANF.C44_oot_smaller",
    "ANF.C44_monotone",
    "ANF.C44_interpreter_value",
    "ANF.C44_interpreter_divergence",
    "ANF.C44_trichotomy"
   ],
   "note": "bstep/bstep_fuel of eval.v (natural-number fuel and trace, rules for primitives added): determinism of value, fuel and trace; out of time below the cost and only there; the interpreter used by the other LambdaANF theorems agrees with the relation on values and on divergence."
  },
  {
   "property": "C45",
   "status": "proved",
   "theorems": [
    "Ctor.C45_info",
    "Ctor.C45_injective",
    "Ctor.C45_types"
   ],
   "note": "convert_env over all environments with distinct block names: tags injective, above reserved tags, recorded with name, arity, ordinal and type tag."
  },
  {
   "property": "C46",
   "status": "partial",
   "theorems": [
    "ANF.C46_total",
    "ANF.C46_preserves",
    "ANF.C46_data",
    "ANF.C46_above",
    "ANF.C46_constructors",
    "E2E.C46_c_total_partial",
    "E2E.C46_c_partial",
    "E2E.C46_c_safe_partial",
    "E2E.C46_program_c_partial",
    "E2E.C46_cps_tail_calls",
    "E2E.C46_cps_c_total_partial",
    "E2E.C46_cps_c_partial",
    "E2E.C46_cps_c_safe_partial",
    "E2E.C46_program_cps_c_partial",
    "E2E.C46_compile_total",
    "E2E.C46_compile_data_partial",
    "E2E.C46_compile_returns_partial",
    "E2E.C46_compile_diverges_partial",
    "E2E.C46_compile_not_wrong_partial",
    "E2E.C46_wasm_partial",
    "E2E.C46_wasm_safe_partial",
    "E2E.C46_program_wasm_partial"
   ],
   "note": "The optimising pipeline anf_pipeline with every combination of options: it succeeds, gives a closed program with distinct binders and all functions at the top (C46_total), keeps results and divergence (C46_preserves, C46_data) and the description of constructors (C46_constructors). With the conversion in front, in direct or continuation-passing style (C46_compile_*), and a backend behind: source programs, also with global constants, evaluating to data give Wasm modules exporting that data and C programs returning it, and those of programs that apply no erased proof never trap or have undefined behaviour (C46_wasm_partial, C46_wasm_safe_partial, C46_program_wasm_partial; in direct style C46_c_partial, C46_c_safe_partial, C46_program_c_partial; in continuation-passing style, where all calls stay tail calls by C46_cps_tail_calls, C46_cps_c_partial, C46_cps_c_safe_partial, C46_program_cps_c_partial). Missing: programs applying an erased proof; for C, calls of at most 1024 arguments and, only for the backend's acceptance of every program (C46_c_total_partial), that the optimisations keep calls in agreement with the tags of functions; for C in continuation-passing style also what is missing in C51. Primitive operations: C58."
  },
  {
   "property": "C47",
   "status": "proved",
   "theorems": [
    "Src.C47_deterministic",
    "Src.C47_values_final",
    "Src.C47_never_stuck_application",
    "Src.C47_interpreter_exact",
    "Src.C47_more_fuel"
   ],
   "note": "Relation of wcbvEval.v against its fuelled evaluator (including the direction admitted in the repo)."
  },
  {
   "property": "C48",
   "status": "partial",
   "theorems": [
    "RT.C48_boxed",
    "RT.C48_unboxed_refuted"
   ],
   "note": "Boxed ordinal proved; get_unboxed_ordinal tags its argument instead of untagging it (refuted for every ordinal)."
  },
  {
   "property": "C49",
   "status": "partial",
   "theorems": [
    "Conv.C49_converted",
    "Ctor.C49_declared",
    "Ctor.C49_backend_refuted",
    "Ctor.C49_prims",
    "Ctor.C49_unique_names",
    "Ctor.C49_runtime_names",
    "E2E.C49_compiled"
   ],
   "note": "Declared identifiers are distinct and below program variables; converted programs only bind variables from the first one on (C49_converted), and optimised programs only variables above it (C49_compiled); primitives get fresh identifiers; C names of variables are unique and differ from runtime names. C49_backend_refuted: the identifiers passed to the backend are not distinct (84 twice)."
  },
  {
   "property": "C50",
   "status": "partial",
   "theorems": [
    "RT.C50_mk_block",
    "RT.C50_mk_float",
    "RT.C50_mk_pair_partial",
    "RT.C50_mk_pair_refuted",
    "RT.C50_gmp_alloc_partial",
    "RT.C50_gmp_alloc_refuted"
   ],
   "note": "mk_block, mk_float proved; mk_pair reserves nothing and the GMP allocation hook does not advance alloc (refuted), with _partial theorems for the cases that are safe."
  },
  {
   "property": "C51",
   "status": "partial",
   "theorems": [
    "CGen.Cps.C51_compiles",
    "CGen.Cps.C51_returns_partial",
    "CGen.Cps.C51_diverges_partial",
    "CGen.Cps.C51_no_overflow_partial",
    "CGen.Cps.C51_entry_partial",
    "CGen.Cps.C51_limit_refuted",
    "CGen.Cps.C51_arguments_refuted",
    "CGen.Cps.C51_literal_refuted",
    "CGen.Cps.C51_primitive_refuted"
   ],
   "note": "Whole-program simulation of LambdaANF_to_Clight.compile for every collector meeting gc.h's contract: results, divergence and absence of undefined behaviour (C51_returns_partial, C51_diverges_partial, C51_no_overflow_partial), the entry check (C51_entry_partial), acceptance (C51_compiles). Missing: float and string literals (C51_literal_refuted), allocating primitives (C51_primitive_refuted), collectors that change the end of the nursery (C51_limit_refuted), more than 1024 arguments (C51_arguments_refuted), calls in the middle of functions (not in CPS)."
  },
  {
   "property": "C52",
   "status": "partial",
   "theorems": [
    "CGen.Cps.C52_declared",
    "CGen.Cps.C52_main_partial",
    "CGen.Cps.C52_main_refuted"
   ],
   "note": "Functions declare what they use (C52_declared); the main function does if its expression has no match (C52_main_partial), and never if it has one (C52_main_refuted)."
  },
  {
   "property": "C53",
   "status": "partial",
   "theorems": [
    "CGen.Cps.C53_swapped",
    "CGen.Cps.C53_literal_partial",
    "CGen.Cps.C53_literal_refuted"
   ],
   "note": "The words are those the runtime expects with their bytes reversed (C53_swapped, every string), so only literals whose words are symmetric are right (C53_literal_partial); the empty string and strings of one byte are refuted (C53_literal_refuted)."
  },
  {
   "property": "C54",
   "status": "partial",
   "theorems": [
    "Box.C54_wf",
    "Box.C54_sound",
    "Box.C54_only_value",
    "Box.C54_reflects",
    "Box.C54_confused_stuck",
    "Box.C54_strict",
    "Box.C54_data",
    "Box.C54_terminates",
    "Box.C54_deterministic",
    "Box.C54_value_wf",
    "Box.C54_constants",
    "Box.C54_spine",
    "Box.C54_force_lazy",
    "Box.C54_typed",
    "Box.C54_linked",
    "Box.C54_forced_function_refuted",
    "Box.C54_applied_lazy_refuted",
    "E2E.C54_source",
    "E2E.C54_front",
    "E2E.C54_compile_total",
    "E2E.C54_wasm_partial",
    "E2E.C54_c_partial",
    "E2E.C54_cps_c_partial"
   ],
   "note": "All of the front end: values are preserved (C54_sound, C54_only_value) and reflected (C54_reflects) up to programs that are stuck because a delayed computation is applied, a function forced or a proof matched; for these the converse is refuted (C54_forced_function_refuted, C54_applied_lazy_refuted) and for programs without them the two sides agree on data and termination (C54_data, C54_terminates, C54_strict). Well-formedness and typing conditions of the later phases are established (C54_wf, C54_typed, C54_source). The end-to-end theorems to Wasm and C are partial: programs that apply a proof and functional results are not covered, and for C the call-tag condition stays a hypothesis."
  },
  {
   "property": "C55",
   "status": "partial",
   "theorems": [
    "GC.C55_unboxed",
    "GC.C55_copy",
    "GC.C55_frame",
    "GC.C55_abort",
    "GC.C55_total_partial",
    "GC.C55_static_root_refuted",
    "GC.C55_other_roots_refuted",
    "GC.C55_resume_refuted",
    "GC.C55_assert_refuted"
   ],
   "note": "Proved for all well-formed heaps: unboxed roots (C55_unboxed), heap blocks are copied deeply, compactly and closed (C55_copy), what is not touched (C55_frame), why an export may abort (C55_abort). Totality is partial (C55_total_partial): heaps with more remembered-set entries than words in use are excluded, since the assertion can fail there (C55_assert_refuted). Refuted: boxed static roots (C55_static_root_refuted), keeping the other roots of the program (C55_other_roots_refuted), going on allocating (C55_resume_refuted)."
  },
  {
   "property": "C56",
   "status": "partial",
   "theorems": [
    "CGen.C56_collector",
    "CGen.C56_allocation",
    "CGen.C56_start",
    "CGen.C56_returns_partial",
    "CGen.C56_diverges_partial",
    "CGen.C56_defined_partial",
    "CGen.C56_reserves",
    "CGen.C56_abort",
    "E2E.C56_source_partial",
    "E2E.C56_erased_partial"
   ],
   "note": "Proved for all programs, layouts and results of malloc: garbage_collect meets what generated code relies on (C56_collector), allocation keeps its invariant (C56_allocation), the state after make_tinfo is well-formed (C56_start), results and divergence (C56_returns_partial, C56_diverges_partial), no undefined behaviour (C56_defined_partial), reasons for an abort (C56_abort, C56_reserves); from source and erased programs (C56_source_partial, C56_erased_partial). Missing: primitives are assumed to keep the collector's invariant, float and string literals (C25_literal_refuted), and calls of more than 1024 arguments."
  },
  {
   "property": "C57",
   "status": "partial",
   "theorems": [
    "CGen.C57_prims_partial",
    "CGen.C57_pair_partial",
    "CGen.C57_returns_partial",
    "CGen.C57_defined_partial",
    "CGen.C57_diverges_partial",
    "CGen.C57_compares_refuted",
    "CGen.C57_order_refuted",
    "CGen.C57_carry_refuted",
    "CGen.C57_pair_refuted"
   ],
   "note": "Proved: programs whose integer operations are applied to operands on which prim_int63.c is right (all operands for 18 of the 30 operations) return what they should, with the collector of C56 running at any point, and have no undefined behaviour; operations returning pairs are right when enough words are free. Refuted: signed comparison (registered with the unsigned function), unsigned order across 2^62, carries, pairs in a full nursery."
  },
  {
   "property": "C58",
   "status": "partial",
   "theorems": [
    "Conv.C58_deterministic",
    "Conv.C58_outcomes",
    "Conv.C58_conservative",
    "Conv.C58_anf",
    "Conv.C58_cps",
    "E2E.C58_c_partial",
    "E2E.C58_c_safe_partial",
    "E2E.C58_cps_c_partial",
    "E2E.C58_cps_c_safe_partial",
    "E2E.C58_compile",
    "E2E.C58_int63_partial",
    "E2E.C58_wasm",
    "E2E.C58_wasm_safe"
   ],
   "note": "Semantics of primitive operations in source programs: big-step relation, deterministic, one of value, error, divergence (C58_deterministic, C58_outcomes), agreeing with C33 on programs without them (C58_conservative). Both conversions (C58_anf, C58_cps), the optimising pipeline (C58_compile), Wasm (C58_wasm, C58_wasm_safe) and C in both styles (C58_c_partial, C58_c_safe_partial, C58_cps_c_partial, C58_cps_c_safe_partial) keep results, divergence and freedom from errors; with the collector and prim_int63.c behind: C58_int63_partial. Applying an erased proof is an error here. Missing for C: calls with more than 1024 arguments, operands on which prim_int63.c is wrong and operations returning pairs (C57), in continuation-passing style what is missing in C51; global constants in front (C32 covers programs without primitive constants)."
  },
  {
   "property": "C59",
   "status": "proved",
   "theorems": [
    "E2E.C59_host",
    "E2E.C59_host_safe",
    "Wasm.C59_module_iff",
    "Wasm.C59_valid",
    "Wasm.C59_instantiates",
    "Wasm.C59_indirect",
    "Wasm.C59_exports",
    "Wasm.C59_function_exports"
   ],
   "note": "The emitted module exists iff the functions can be translated (C59_module_iff), is valid (C59_valid), instantiates into the state of C29/C30 (C59_instantiates), indirect calls reach the function of that index with that number of parameters (C59_indirect), exports (C59_exports, C59_function_exports); from source programs to what the host sees (C59_host, C59_host_safe)."
  },
  {
   "property": "C60",
   "status": "partial",
   "theorems": [
    "CGen.C60_call_partial",
    "CGen.C60_call_diverges_partial",
    "CGen.C60_session_partial",
    "CGen.C60_session_diverges_partial",
    "CGen.C60_session_defined_partial",
    "CGen.C60_runtime_partial",
    "CGen.C60_runtime_defined_partial",
    "CGen.C60_alloc_refuted"
   ],
   "note": "One call (C60_call_partial, C60_call_diverges_partial), C programs of any length (C60_session_partial, C60_session_diverges_partial, C60_session_defined_partial), with the collector of the runtime from make_tinfo on (C60_runtime_partial, C60_runtime_defined_partial). Refuted for constructor functions called without making room (C60_alloc_refuted: they do not check). Missing: programs with float or string literals (as C24), continuation-passing style."
  },
  {
   "property": "C61",
   "status": "partial",
   "theorems": [
    "CGen.Ffi.C61_closure",
    "CGen.Ffi.C61_step_partial",
    "CGen.Ffi.C61_call_partial",
    "CGen.Ffi.C61_all_partial",
    "CGen.Ffi.C61_direct_partial",
    "CGen.Ffi.C61_direct_refuted",
    "CGen.Ffi.C61_room_refuted",
    "CGen.Ffi.C61_nullary_refuted",
    "CGen.Ffi.C61_collect_refuted"
   ],
   "note": "C61_all_partial: all arities, options, arguments and C functions, continuation-passing style, under the hypotheses that there is room for the closures and that the C function leaves the continuation readable. The generated code ensures neither (C61_room_refuted, C61_collect_refuted), does not work in direct style (C61_direct_refuted) and not for constants outside IO (C61_nullary_refuted)."
  },
  {
   "property": "C62",
   "status": "partial",
   "theorems": [
    "CPrint.C62_reading_unique",
    "CPrint.C62_declaration_partial",
    "CPrint.C62_type_partial",
    "CPrint.C62_expression_partial",
    "CPrint.C62_statement_partial",
    "CPrint.C62_function_partial",
    "CPrint.C62_statement_meaning_partial",
    "CPrint.C62_function_meaning_partial",
    "CPrint.C62_negation_refuted",
    "CPrint.C62_callee_refuted",
    "CPrint.C62_emptyCase_refuted",
    "CPrint.C62_leastInteger_refuted",
    "CPrint.C62_functionType_refuted"
   ],
   "note": "C62_function_meaning_partial, C62_statement_meaning_partial: all functions and statements of the generated fragment that satisfy ok, any size; the text has exactly one reading (C62_reading_unique). Excluded because the printer is wrong there: C62_negation_refuted, C62_callee_refuted, C62_emptyCase_refuted, C62_leastInteger_refuted, C62_functionType_refuted. Not modelled: floating-point constants, loops, goto, attributes."
  },
  {
   "property": "C63",
   "status": "partial",
   "theorems": [
    "CPrint.C63_extern_distinct",
    "CPrint.C63_temporary_distinct",
    "CPrint.C63_extern_identifier",
    "CPrint.C63_temporary_identifier",
    "CPrint.C63_info",
    "CPrint.C63_number_refuted",
    "CPrint.C63_ownName_refuted",
    "CPrint.C63_infoDigit_refuted",
    "CPrint.C63_unicode_refuted",
    "CPrint.C63_session_partial",
    "CPrint.C63_session_refuted"
   ],
   "note": "C63_extern_distinct, C63_temporary_distinct, C63_extern_identifier, C63_temporary_identifier: all identifiers and name tables with NamesOk; C63_info keeps it for the tables of functions. Partial because it fails in a session for identifiers without a name (C63_session_refuted; C63_session_partial for named ones) and for the names of C63_number_refuted, C63_ownName_refuted, C63_infoDigit_refuted, C63_unicode_refuted."
  },
  {
   "property": "C64",
   "status": "partial",
   "theorems": [
    "CGen.Text.C64_readable_partial",
    "CGen.Text.C64_text_partial",
    "CGen.Text.C64_returns_partial",
    "CGen.Text.C64_safe_partial",
    "E2E.C64_source_partial",
    "E2E.C64_source_safe_partial",
    "E2E.C64_source_readable_partial"
   ],
   "note": "For programs without string and float constants whose numbers fit in words. The functions of the file are covered, not the declarations of types, functions and tables. Integers are not truncated, as in C24."
  },
  {
   "property": "C65",
   "status": "partial",
   "theorems": [
    "CGen.Text.C65_scope_partial",
    "CGen.Text.C65_result_refuted"
   ],
   "note": "The text of the functions of a C file (CGen/TextModel.lean printed by CPrint/Model.lean), however it is read, declares each name used once, and hides none. Partial: assumed that functions are not matched on and that the program itself does not end in a call; for the latter C65_result_refuted shows that $result is not declared. Not covered: declarations of types, prototypes and tables for the collector."
  },
  {
   "property": "C66",
   "status": "partial",
   "theorems": [
    "CGen.Text.C66_types_partial",
    "CGen.Text.C66_closure_refuted"
   ],
   "note": "The functions of a C file (CGen/TextModel.lean printed by CPrint/Model.lean), however the text is read, are well typed in the sense of CGen/TypeSpec.lean against the declarations of runtime/gc_stack.h. Partial: the implicit conversion of function pointers to integers is allowed in the general part, because the generator relies on it (C66_closure_refuted); without it the theorem is for programs that only call their functions. Assumed as in C65; no constructor matched twice. Not covered: declarations of types, prototypes, tables for the collector."
  },
  {
   "property": "C67",
   "status": "partial",
   "theorems": [
    "E2E.C67_eval_partial",
    "E2E.C67_eval_erased_partial",
    "Reify.C67_reify_partial",
    "Reify.C67_mapping_iff",
    "Reify.C67_mapping_refuted",
    "Reify.C67_typing_refuted",
    "Reify.C67_let_refuted",
    "Reify.C67_proof_refuted",
    "Reify.C67_types"
   ],
   "note": "Terms of types without proofs in arguments, without constructors whose only arguments are lets, and with constructor orders that are their own inverse; the others are refuted (C67_mapping_iff, C67_mapping_refuted, C67_typing_refuted, C67_let_refuted, C67_proof_refuted). Types of arguments that mention earlier arguments are not expressed. C67_eval_partial composes the reader with the compiler, the generated C and the collector."
  },
  {
   "property": "C68",
   "status": "partial",
   "theorems": [
    "Reify.C68_fresh",
    "Reify.C68_eval_partial",
    "Reify.C68_file_refuted",
    "Reify.C68_goal_refuted",
    "Reify.C68_mapping_refuted",
    "Reify.C68_digits_refuted",
    "Reify.C68_back"
   ],
   "note": "Sessions in which no file name is given to the tactic and Extract Inductives is not used once terms are compiled; both are refuted (C68_file_refuted, C68_goal_refuted, C68_mapping_refuted). C68_fresh: the search for a file name ends with one not used before, unless the name consists of digits (C68_digits_refuted)."
  },
  {
   "property": "C69",
   "status": "partial",
   "theorems": [
    "Glue.C69_print_partial",
    "Glue.C69_mutual_refuted",
    "Glue.C69_nested_refuted",
    "Glue.C69_let_refuted"
   ],
   "note": "C69_print_partial: for all declarations of types alone in their blocks, with arguments that are parameters, functions, universes, propositions or inductive types applied to parameters and closed types, all values and all memories, print_T prints the value. Refuted with witnesses for mutual blocks (for all memories), nested applications and lets in constructors."
  },
  {
   "property": "C70",
   "status": "partial",
   "theorems": [
    "Reg.C70_choice",
    "Reg.C70_unique",
    "Reg.C70_numbers",
    "Reg.C70_clause_partial",
    "Reg.C70_override_refuted",
    "Reg.C70_arity_partial",
    "Reg.C70_given",
    "Reg.C70_arity_refuted",
    "Reg.C70_axioms",
    "Reg.C70_closed",
    "Reg.C70_compiled",
    "Reg.C70_known",
    "Reg.C70_total",
    "Reg.C70_text_partial"
   ],
   "note": "Proved: which realisation is used, numbers, arities, flags and names agree through linking, conversion, all optimisations and the C file; programs are refused exactly for unrealised axioms. The clause of the compiling command loses against registrations (C70_override_refuted), arities of defined types are wrong (C70_arity_refuted). Not covered: the C functions themselves, the headers, the text of the CPS backend and Wasm imports."
  },
  {
   "property": "C71",
   "status": "partial",
   "theorems": [
    "Boot.C71_copy_partial",
    "Boot.C71_raw_refuted",
    "Boot.C71_shared_refuted"
   ],
   "note": "C71_copy_partial: all results made of constructors whose blocks are not in OCaml's heap, all allocators meeting Law. Refuted for results sharing blocks with the arguments (C71_shared_refuted) and for blocks of numbers or bytes (C71_raw_refuted). Assumed of OCaml: Law (Boot/Spec.lean). The depth of the C stack is not bounded."
  },
  {
   "property": "C72",
   "status": "partial",
   "theorems": [
    "Proc.C72_run_partial",
    "Proc.C72_shown",
    "Proc.C72_completes_iff",
    "Proc.C72_deadlock_refuted",
    "Proc.C72_input_refuted",
    "Proc.C72_status_refuted",
    "Proc.C72_execute",
    "Proc.C72_execute_total"
   ],
   "note": "C72_run_partial: all programs that read no input and write no more to the error output than a pipe holds, all interleavings; C72_completes_iff: exactly these come to an end; C72_shown, C72_execute: what is shown or returned is right for all programs. Refuted otherwise: C72_deadlock_refuted, C72_input_refuted; C72_status_refuted: failures are not shown by Run."
  },
  {
   "property": "C73",
   "status": "partial",
   "theorems": [
    "Files.C73_options",
    "Files.C73_placed",
    "Files.C73_wasm_refuted",
    "Files.C73_ffi_refuted",
    "Files.C73_run_partial",
    "Files.C73_absolute_refuted",
    "Files.C73_prime_refuted",
    "Files.C73_eval_iff",
    "Files.C73_toplevel_refuted",
    "Files.C73_runtime_refuted"
   ],
   "note": "C73_options, C73_placed: all options. C73_run_partial: relative build directories and names without characters special to the shell. C73_eval_iff: exactly without -ext. Refuted otherwise: absolute build directories, names with primes, -toplevel_name and -cps with Run, Wasm and FFI with -build_dir."
  },
  {
   "property": "C74",
   "status": "partial",
   "theorems": [
    "Bnd.C74_positive",
    "Bnd.C74_n",
    "Bnd.C74_int64",
    "Bnd.C74_int32",
    "Bnd.C74_nat",
    "Bnd.C74_bytes",
    "Bnd.C74_bytestring",
    "Bnd.C74_of_int_refuted",
    "Bnd.C74_coqstring_refuted"
   ],
   "note": "Proved: positives, 32- and 64-bit constants, nat, bytes and byte strings in both directions. Refuted: P.of_int, N.of_int and coqstring_of_camlstring are off by one (C74_of_int_refuted, C74_coqstring_refuted). Decimal printing is in C62."
  },
  {
   "property": "C75",
   "status": "partial",
   "theorems": [
    "Hdr.C75_headers_iff",
    "Hdr.C75_cfile_iff",
    "Hdr.C75_directory",
    "Hdr.C75_guard_name",
    "Hdr.C75_values_refuted",
    "Hdr.C75_guards_refuted",
    "Hdr.C75_runtime_refuted",
    "Hdr.C75_digit_refuted"
   ],
   "note": "C75_headers_iff, C75_cfile_iff: exactly when headers and C files work, for all sets of file names, both styles and all sequences of includes; C75_guard_name. Refuted for -file values, config or gc_stack, constants whose names differ in case or in primes, and file names beginning with a digit. Not modelled: headers the user asks for, and files in subdirectories."
  },
  {
   "property": "C76",
   "status": "partial",
   "theorems": [
    "Link.C76_generated",
    "Link.C76_generated_refuted",
    "Link.C76_links_iff",
    "Link.C76_main_refuted",
    "Link.C76_table_refuted",
    "Link.C76_function_refuted",
    "Link.C76_own",
    "Link.C76_tables",
    "Link.C76_glue_refuted"
   ],
   "note": "C76_links_iff: exactly when two programs can be linked; C76_own: one file defines no name twice; C76_tables: tables have the names of their functions. Refuted: equal names of the main function (the default), equal last numbers (C76_table_refuted), common functions with the same number (C76_function_refuted), any two files of glue code (C76_glue_refuted). Direct style."
  },
  {
   "property": "C77",
   "status": "partial",
   "theorems": [
    "Msg.C77_eval",
    "Msg.C77_value",
    "Msg.C77_run_partial",
    "Msg.C77_ends",
    "Msg.C77_run_iff",
    "Msg.C77_notice_refuted",
    "Msg.C77_nul_refuted",
    "Msg.C77_error_refuted"
   ],
   "note": "Messages in CertiRocq Eval are shown as sent (C77_eval). For CertiRocq Run: what is shown (C77_run_partial), that the run ends (C77_ends), the value returned (C77_value), and exactly when messages are shown one by one (C77_run_iff); notices run together, messages are cut at zero bytes, and errors do not make the command fail."
  },
  {
   "property": "C78",
   "status": "partial",
   "theorems": [
    "Lib.C78_calls",
    "Lib.C78_defined",
    "Lib.C78_distinct_partial",
    "Lib.C78_distinct_refuted",
    "Lib.C78_header_partial",
    "Lib.C78_header_refuted",
    "Lib.C78_arity_partial",
    "Lib.C78_arity_refuted"
   ],
   "note": "Calls: proved for all programs and sessions (C78_calls), with one definition per name. Missing: four declarations in prim_string.h differ from the definitions, compare and compares share a function, and GMP.nat_case is registered with fewer arguments than its type (refuted with witnesses)."
  },
  {
   "property": "C79",
   "status": "partial",
   "theorems": [
    "CGen.C79_call_partial",
    "CGen.C79_args_refuted",
    "CGen.C79_pred",
    "CGen.C79_case_partial",
    "CGen.C79_big_partial",
    "CGen.C79_zero_refuted",
    "CGen.C79_collect_refuted"
   ],
   "note": "Proved for machine integers and at least two C parameters; predecessors of all numbers; for larger numbers the call is right if nothing is collected. Missing: a collection while the predecessor is made, fewer C parameters, and zeros allocated by GMP (refuted with witnesses)."
  },
  {
   "property": "C80",
   "status": "partial",
   "theorems": [
    "IR.C80_variables",
    "IR.C80_floats",
    "IR.C80_program_partial",
    "IR.C80_result_partial",
    "IR.C80_constructors_refuted",
    "IR.C80_primitive_refuted",
    "IR.C80_anonymous_refuted",
    "IR.C80_tags_refuted"
   ],
   "note": "C80_program_partial: all programs and name tables; same text, same program but for tags of functions. C80_result_partial: same data and divergence, unless one goes wrong. C80_variables without conditions, C80_floats for all floats of Rocq. Excluded because the printer does not tell them apart: constructors of the same name, constructors named prim_N or con_N, tags of functions (refuted with witnesses). Assumed: texts of strings, made by MetaRocq, have no newlines and are different."
  },
  {
   "property": "C81",
   "status": "partial",
   "theorems": [
    "Quote.C81_compiler",
    "Quote.C81_checker_partial",
    "Quote.C81_checker_iff",
    "Quote.C81_literal_refuted"
   ],
   "note": "All quoted programs reach the compiled compiler with their universes and sets converted and otherwise unchanged (C81_compiler), and the checker if they have no literals (C81_checker_partial, C81_checker_iff); with a literal the wrapper of the checker raises an exception (C81_literal_refuted)."
  }
 ]
}