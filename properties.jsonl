{"id": "C01", "title": "int63 add/sub/mul wrap modulo 2^63", "statement": "For every pair of primitive integers x,y, calling the C runtime's add, sub and mul on their tagged words returns the tagged word of (x+y), (x-y), (x*y) modulo 2^63.", "quantifier": "all pairs of 63-bit integers", "why_tests_cant": "2^126 input pairs; the interesting cases are wrap-around and tag-bit interference", "anchors": ["runtime/prim_int63.c:prim_int63_add,prim_int63_sub,prim_int63_mul", "runtime/values.h:Val_long"]}
{"id": "C02", "title": "int63 division and remainder with Rocq's zero conventions", "statement": "For every x,y, C div/mod return the tagged quotient/remainder of the unsigned 63-bit values, with x/0=0 and x mod 0=x.", "quantifier": "all pairs of 63-bit integers", "why_tests_cant": "2^126 input pairs", "anchors": ["runtime/prim_int63.c:prim_int63_div,prim_int63_mod"]}
{"id": "C03", "title": "int63 bitwise operations and shifts", "statement": "For every x,y, C land/lor/lxor/lsl/lsr return the tagged word of the 63-bit bitwise operation; shifting by 63 or more yields 0.", "quantifier": "all pairs of 63-bit integers", "why_tests_cant": "2^126 input pairs, over-shift is undefined behaviour in C unless guarded", "anchors": ["runtime/prim_int63.c:prim_int63_land,prim_int63_lor,prim_int63_lxor,prim_int63_lsl,prim_int63_lsr"]}
{"id": "C04", "title": "int63 unsigned comparisons", "statement": "For every x,y, C eqb/ltb/leb/compare return the boolean (or Eq/Lt/Gt) of the unsigned 63-bit order.", "quantifier": "all pairs of 63-bit integers", "why_tests_cant": "the order only goes wrong at the sign boundary 2^62", "anchors": ["runtime/prim_int63.c:prim_int63_eqb,prim_int63_ltb,prim_int63_leb,prim_int63_compare"]}
{"id": "C05", "title": "int63 signed operations", "statement": "For every x,y, C divs/mods/asr/ltsb/lesb/compares agree with Sint63 (two's-complement 63-bit) division, remainder, arithmetic shift and order.", "quantifier": "all pairs of 63-bit integers", "why_tests_cant": "2^126 input pairs", "anchors": ["runtime/prim_int63.c:prim_int63_divs,prim_int63_mods,prim_int63_asr,prim_int63_ltsb,prim_int63_lesb,prim_int63_compares"]}
{"id": "C06", "title": "int63 carry operations", "statement": "For every x,y, C addc/addcarryc/subc/subcarryc return C0 r when the exact result fits and C1 r otherwise, r being the result modulo 2^63.", "quantifier": "all pairs of 63-bit integers", "why_tests_cant": "carry is only wrong for some ranges", "anchors": ["runtime/prim_int63.c:prim_int63_addc,prim_int63_addcarryc,prim_int63_subc,prim_int63_subcarryc"]}
{"id": "C07", "title": "int63 double-width operations", "statement": "For every input, C mulc returns (hi,lo) with hi*2^63+lo=x*y; diveucl returns (x/y,x mod y); diveucl_21 divides the 126-bit value xh*2^63+xl by y when xh<y; addmuldiv p x y returns (x*2^p + y/2^(63-p)) mod 2^63.", "quantifier": "all pairs/triples of 63-bit integers", "why_tests_cant": "loops of 63 iterations over 2^189 inputs", "anchors": ["runtime/prim_int63.c:prim_int63_mulc,mulc_aux,prim_int63_diveucl,prim_int63_diveucl_21,prim_int63_addmuldiv"]}
{"id": "C08", "title": "int63 head0 and tail0", "statement": "For every x, C head0 returns the number of leading zeros in the 63-bit representation and tail0 the number of trailing zeros (63 for x=0).", "quantifier": "all 63-bit integers", "why_tests_cant": "2^63 inputs", "anchors": ["runtime/prim_int63.c:prim_int63_head0,prim_int63_tail0"]}
{"id": "C09", "title": "Wasm int63 primitives implement Uint63", "statement": "For every argument, the instruction sequence the Wasm backend emits for each supported int63 primitive computes the Uint63 specification (add, sub, mul, div, mod, land, lor, lxor, lsl, lsr, eqb, ltb, leb, compare, addc, addcarryc, subc, subcarryc, mulc, diveucl, diveucl_21, head0, tail0, addmuldiv).", "quantifier": "all 63-bit arguments", "why_tests_cant": "2^126..2^189 inputs and loops", "anchors": ["theories/CodegenWasm/LambdaANF_to_Wasm_primitives.v"]}
{"id": "C10", "title": "tagging is a bijection on 63-bit integers and disjoint from pointers", "statement": "For every 63-bit integer n, untagging the tagged n gives n back (unsigned and signed), distinct integers have distinct words, and no tagged integer is ever mistaken for a block pointer (word aligned address) nor conversely.", "quantifier": "all 63-bit integers and all word-aligned addresses", "why_tests_cant": "2^63 inputs", "anchors": ["runtime/values.h:Val_long,Long_val,Unsigned_long_val,Is_long,Is_block", "theories/Codegen/LambdaANF_to_Clight_stack.v:compile_primitive,makeTagZ"]}
{"id": "C11", "title": "garbage collection preserves the reachable graph", "statement": "For every well-formed heap and every set of roots, after a collection every root denotes the same object graph as before (same headers, same scalar fields, same sharing/cycles up to renaming of addresses); nothing outside the collected generation is changed except pointers into it.", "quantifier": "all heaps, root stacks, object graphs (any size, sharing, cycles)", "why_tests_cant": "unbounded graphs; a wrong forwarding pointer shows only for some shapes", "anchors": ["runtime/gc_stack.c:forward,forward_roots,do_scan,do_generation,garbage_collect"]}
{"id": "C12", "title": "a returning collection provides the requested nursery space", "statement": "For every heap and every request nalloc, if garbage_collect returns then limit-alloc >= nalloc and alloc points into the (empty) nursery; otherwise the program is aborted.", "quantifier": "all heaps and requests", "why_tests_cant": "unbounded heap states", "anchors": ["runtime/gc_stack.c:garbage_collect,resume"]}
{"id": "C13", "title": "the collector never writes outside the to-space", "statement": "For every well-formed heap with the to-space free room at least the used room of the from-space, a collection of that generation never writes outside the to-space (or the root slots / from-space forwarding words), and each live object is copied exactly once.", "quantifier": "all heaps", "why_tests_cant": "overflow depends on exact sizes, including remembered-set growth", "anchors": ["runtime/gc_stack.c:forward,do_scan,forward_remset"]}
{"id": "C14", "title": "unscanned blocks survive bit for bit", "statement": "For every collection, the payload of a block with tag >= 251 (string, float, GMP number) is copied unchanged even when its words look like pointers.", "quantifier": "all payloads", "why_tests_cant": "payload words can alias any address", "anchors": ["runtime/gc_stack.c:do_scan,forward", "runtime/gc_stack.h:No_scan_tag"]}
{"id": "C15", "title": "write barrier: objects reachable only from a mutated older object survive", "statement": "For every history of mutations through the runtime's modify operation, a later collection of the younger generation keeps every object reachable from the mutated cells, and updates those cells.", "quantifier": "all histories of allocations, mutations and collections", "why_tests_cant": "bug needs a specific old-to-young history", "anchors": ["runtime/gc_stack.c:certirocq_modify,forward_remset"]}
{"id": "C16", "title": "heap well-formedness is an invariant of every run", "statement": "For every sequence of allocation, mutation and collection operations starting from a fresh heap, the heap stays well-formed: every pointer stored in a live block or root points to the start of an allocated block, generations are disjoint, next<=limit<=rem_limit.", "quantifier": "all operation sequences", "why_tests_cant": "unbounded histories", "anchors": ["runtime/gc_stack.c:create_heap,make_tinfo,garbage_collect,certirocq_modify"]}
{"id": "C17", "title": "resetting a heap yields a fresh heap", "statement": "After reset_heap, for every heap, a subsequent run behaves as on a freshly created heap: no stale remembered-set entries or objects are visible.", "quantifier": "all heaps", "why_tests_cant": "depends on the history before the reset", "anchors": ["runtime/gc_stack.c:reset_heap"]}
{"id": "C18", "title": "string literals are laid out so that length and bytes are recovered", "statement": "For every byte string, the words emitted by the compiler for a string literal, read by the runtime's length and byte-get operations, give back exactly its length and bytes; the header announces exactly the number of words emitted and a no-scan tag.", "quantifier": "all byte strings", "why_tests_cant": "padding logic differs for each residue of the length mod 8", "anchors": ["theories/Codegen/LambdaANF_to_Clight_stack.v:encode_list,compile_primitive", "runtime/prim_string.c:prim_strlen,prim_string_get"]}
{"id": "C19", "title": "runtime string primitives", "statement": "For every argument, string length/get/make/sub/cat/compare return what PString specifies and never write past the space reserved for the result.", "quantifier": "all strings, offsets and lengths", "why_tests_cant": "one-word overflow appears only for a full nursery", "anchors": ["runtime/prim_string.c:prim_string_make,prim_string_sub,prim_string_cat,prim_string_compare,prim_string_get,mk_ocaml_string"]}
{"id": "C20", "title": "float successor, predecessor, order and classification", "statement": "For every finite double x, next_up returns the least double greater than x and next_down the greatest double less than x; compare agrees with the IEEE order; classify with the class of the bit pattern.", "quantifier": "all 2^64 doubles", "why_tests_cant": "2^64 inputs, boundary cases at zeros, subnormals, infinities", "anchors": ["runtime/prim_floats.c:next_up,next_down,prim_float_compare,prim_float_classify,prim_float_of_uint63"]}
{"id": "C21", "title": "GMP-backed integers", "statement": "For every pair of integers (small or big representation), z_succ/z_pred/z_neg/z_abs/z_add/z_sub/z_mul/z_div/z_rem/z_leq/z_lt/z_geq/z_gt/z_equal/z_compare/z_max/z_min return the representation of the mathematical result.", "quantifier": "all integers in both representations", "why_tests_cant": "errors appear at the small/big boundary and for negative numbers", "anchors": ["runtime/certirocq_gmp.c"]}
{"id": "C22", "title": "conversion of Rocq strings to C strings", "statement": "For every Rocq byte-string value laid out in memory by compiled code, the FFI conversion returns a zero-terminated buffer with exactly its bytes, having written only inside the allocated buffer.", "quantifier": "all byte strings", "why_tests_cant": "unbounded lengths", "anchors": ["runtime/rocq_c_ffi.c:length_of_coq_string,string_of_coq_string"]}
{"id": "C23", "title": "constructors of one type have distinct run-time representations", "statement": "For every inductive type, the run-time word/header computed for distinct constructors differ and the compiler's ordinals agree with the glue generator's, so a value built by one is recognised by the other.", "quantifier": "all inductive types (any number and arity of constructors)", "why_tests_cant": "overflow of the 8-bit tag needs hundreds of constructors", "anchors": ["theories/LambdaANF/LambdaBoxLocal_to_LambdaANF.v:convert_cnstrs", "theories/Glue/glue_utils.v:process_ctors", "theories/Codegen/LambdaANF_to_Clight_stack.v:make_ctor_rep,makeTagZ"]}
{"id": "C24", "title": "C backend: match selects the branch of the constructor", "statement": "For every inductive type and every complete list of branches, the generated switch run on the representation of constructor c executes the body of c's branch, and projections return the constructor's arguments.", "quantifier": "all inductive types, branch orders and constructor arguments", "why_tests_cant": "default-case selection depends on the branch order", "anchors": ["theories/Codegen/LambdaANF_to_Clight_stack.v:make_case_switch,make_cases,assignConstructorS,translate_body"]}
{"id": "C25", "title": "C backend: heap checks cover all allocation until the next check", "statement": "For every program, between two heap checks the generated code allocates on every path at most the number of words the check reserved.", "quantifier": "all programs and paths", "why_tests_cant": "needs a nursery that is full at exactly the wrong moment", "anchors": ["theories/Codegen/LambdaANF_to_Clight_stack.v:max_allocs,make_GC_call,translate_body"]}
{"id": "C26", "title": "C backend: live variables are saved around calls and the frame is large enough", "statement": "For every program, every local variable needed after a call that may collect is in the shadow-stack frame during that call and reloaded after it, and every slot index used is below the declared size of the frame.", "quantifier": "all programs", "why_tests_cant": "frame overflow depends on the maximal number of live variables over all calls", "anchors": ["theories/Codegen/LambdaANF_to_Clight_stack.v:push_live_vars_offset,pop_live_vars_offset,make_GC_call,max_depth,translate_body,translate_fundefs"]}
{"id": "C27", "title": "glue: constructor functions and tag getters are inverse and agree with compiled code", "statement": "For every inductive type, get_tag applied to the result of the generated constructor function for c returns the index of c, the generated args accessors return the arguments, and the names table at that index is c's name.", "quantifier": "all inductive types", "why_tests_cant": "mixed boxed/unboxed types have many layouts", "anchors": ["theories/Glue/glue.v:get_enum_tag_from_types,constructors_from_ctors,normalized_names_array"]}
{"id": "C28", "title": "glue: C names of distinct Rocq definitions are distinct", "statement": "For every two distinct qualified Rocq names, the sanitised C identifiers used by the glue code are distinct.", "quantifier": "all pairs of names", "why_tests_cant": "collisions need particular characters", "anchors": ["theories/Glue/glue_utils.v:sanitize_qualified,sanitize_string"]}
{"id": "C29", "title": "Wasm backend: constructor layout and match dispatch", "statement": "For every constructor and argument list, the block the Wasm code builds, when matched by the generated nested ifs, selects that constructor's branch, and projections read back the arguments; nullary constructors are odd words and never confused with blocks.", "quantifier": "all inductive types, arguments and memories", "why_tests_cant": "tags and pointers are both i32 words", "anchors": ["theories/CodegenWasm/LambdaANF_to_Wasm.v:store_constructor,create_case_nested_if_chain,translate_body"]}
{"id": "C30", "title": "Wasm backend: no store outside linear memory", "statement": "For every program accepted by the restriction check that does not go wrong in the source semantics, and every execution, each memory store emitted by the backend is inside the memory that the preceding grow check guaranteed, or the program has signalled out-of-memory.", "quantifier": "all programs and executions", "why_tests_cant": "needs memory filled to exactly a page boundary", "anchors": ["theories/CodegenWasm/LambdaANF_to_Wasm.v:call_grow_mem_if_necessary,grow_memory_if_necessary,translate_body"]}
{"id": "C31", "title": "Wasm backend: accepted programs respect the Wasm limits", "statement": "For every program, if the restriction check accepts it then every constructor ordinal, constructor arity, function arity and the number of functions is within the limits the backend relies on; if it rejects, one of them is violated.", "quantifier": "all programs", "why_tests_cant": "nested terms of any depth", "anchors": ["theories/CodegenWasm/LambdaANF_to_Wasm_restrictions.v:check_restrictions"]}
{"id": "C32", "title": "linking of constants preserves meaning", "statement": "For every environment of global constants and every main term, the program obtained by turning the environment into nested lets evaluates to the same value as the main term evaluated in the environment.", "quantifier": "all environments and terms", "why_tests_cant": "de Bruijn offset errors need particular nesting", "anchors": ["theories/LambdaBoxLocal/LambdaBoxMut_to_LambdaBoxLocal.v:trans,cst_offset,mkLets,translate_program"]}
{"id": "C33", "title": "the source semantics is deterministic and the fuel interpreter is exact", "statement": "For every source expression, there is at most one value; the fuelled interpreter returns v for some fuel iff the expression evaluates to v, and more fuel never changes the answer.", "quantifier": "all expressions and fuels", "why_tests_cant": "unbounded recursion", "anchors": ["theories/LambdaBoxLocal/expression.v:eval,eval_n", "theories/LambdaBoxMut/wcbvEval.v:WcbvEval"]}
{"id": "C34", "title": "ANF conversion preserves results and divergence", "statement": "For every closed well-formed source program: if it evaluates to a data value, its ANF form evaluates to the corresponding constructor tree; if it diverges, so does the ANF form.", "quantifier": "all source programs", "why_tests_cant": "all programs and inputs", "anchors": ["theories/LambdaANF/LambdaBoxLocal_to_LambdaANF.v:convert_anf,convert_top_anf"]}
{"id": "C35", "title": "CPS conversion preserves results", "statement": "For every closed well-formed source program evaluating to a data value, its CPS form evaluates to the corresponding constructor tree.", "quantifier": "all source programs", "why_tests_cant": "all programs and inputs", "anchors": ["theories/LambdaANF/LambdaBoxLocal_to_LambdaANF.v:cps_cvt,convert_top"]}
{"id": "C36", "title": "closure conversion preserves results and produces closed functions", "statement": "For every LambdaANF program whose names are distinct: if it evaluates to a data value, the closure-converted program evaluates to the same one, and no function in the output has free variables (other than functions).", "quantifier": "all programs", "why_tests_cant": "all programs", "anchors": ["theories/LambdaANF/closure_conversion.v:exp_closure_conv,fundefs_closure_conv,closure_conversion_top"]}
{"id": "C37", "title": "hoisting flattens functions and preserves results", "statement": "For every closure-converted program, hoisting yields one top-level bundle with no nested functions and the program evaluates to the same data value (and diverges iff it did).", "quantifier": "all programs", "why_tests_cant": "all programs", "anchors": ["theories/LambdaANF/hoisting.v:erase_fundefs,exp_hoist"]}
{"id": "C38", "title": "uncurrying preserves results", "statement": "For every LambdaANF program with distinct names, uncurrying preserves the data value computed and divergence.", "quantifier": "all programs", "why_tests_cant": "all programs", "anchors": ["theories/LambdaANF/uncurry.v:uncurry_exp,uncurry_fundefs,uncurry_fuel"]}
{"id": "C39", "title": "inlining preserves results", "statement": "For every LambdaANF program with distinct names, and any choice of functions to inline, inlining preserves the data value computed.", "quantifier": "all programs, heuristics and depths", "why_tests_cant": "all programs", "anchors": ["theories/LambdaANF/inline.v", "theories/LambdaANF/inline_letapp.v:inline_letapp"]}
{"id": "C40", "title": "lambda lifting preserves results and respects the argument limit", "statement": "For every LambdaANF program with distinct names, lambda lifting preserves the data value computed, and no function receives more than the configured maximum number of parameters because of lifting.", "quantifier": "all programs and limits", "why_tests_cant": "all programs", "anchors": ["theories/LambdaANF/lambda_lifting.v:exp_lambda_lift,fundefs_lambda_lift,fundefs_max_params"]}
{"id": "C41", "title": "shrink reduction preserves results and never grows the program", "statement": "For every LambdaANF program with distinct names, one pass of the shrink reducer preserves the data value computed and does not increase the size of the program.", "quantifier": "all programs", "why_tests_cant": "all programs; depends on exact occurrence counts", "anchors": ["theories/LambdaANF/shrink_cps.v:contract,shrink_top"]}
{"id": "C42", "title": "dead parameter elimination preserves results", "statement": "For every hoisted LambdaANF program, dropping the parameters found dead preserves the data value computed and divergence.", "quantifier": "all programs", "why_tests_cant": "all programs; liveness is a fixpoint", "anchors": ["theories/LambdaANF/dead_param_elim.v:find_live,eliminate"]}
{"id": "C43", "title": "names invented by the compiler are fresh", "statement": "For every program, every binder introduced by a pass is different from all binders and free variables of the program and from every other introduced binder, and programs with distinct binders are mapped to programs with distinct binders.", "quantifier": "all programs", "why_tests_cant": "all programs", "anchors": ["theories/LambdaANF/state.v:get_name,get_names_lst", "theories/LambdaANF/identifiers.v:unique_bindings"]}
{"id": "C44", "title": "the target semantics is deterministic and monotone in fuel", "statement": "For every LambdaANF program and environment, the result does not depend on the derivation, more fuel never changes a finished result, and a program that runs out of fuel at one bound runs out at every smaller one.", "quantifier": "all programs, environments and fuels", "why_tests_cant": "unbounded executions", "anchors": ["theories/LambdaANF/eval.v:bstep,bstep_fuel"]}
{"id": "C45", "title": "constructor tags are globally unique", "statement": "For every list of mutual inductive declarations, conversion assigns pairwise distinct constructor tags, recorded with the right arity, type and ordinal, and different from the reserved tags.", "quantifier": "all environments of inductive types", "why_tests_cant": "all environments", "anchors": ["theories/LambdaANF/LambdaBoxLocal_to_LambdaANF.v:convert_env,convert_typack,convert_cnstrs"]}
{"id": "C46", "title": "compiled pipeline preserves results", "statement": "For every closed source program evaluating to a first-order value, the program obtained after the modelled passes evaluates to the corresponding value.", "quantifier": "all programs", "why_tests_cant": "all programs", "anchors": ["theories/LambdaANF/toplevel.v:anf_pipeline"]}
{"id": "C47", "title": "LambdaBoxMut evaluation is deterministic and values are final", "statement": "For every term and environment, the weak call-by-value evaluator yields at most one value, and values evaluate to themselves.", "quantifier": "all terms", "why_tests_cant": "unbounded", "anchors": ["theories/LambdaBoxMut/wcbvEval.v:WcbvEval"]}
{"id": "C48", "title": "runtime helper for ordinals agrees with the glue code", "statement": "For every constructor value, the runtime functions get_unboxed_ordinal/get_boxed_ordinal return the constructor's ordinal.", "quantifier": "all ordinals and headers", "why_tests_cant": "all ordinals", "anchors": ["runtime/get_ordinal.c", "theories/Glue/glue.v:get_unboxed_ordinal,get_boxed_ordinal"]}
{"id": "C49", "title": "identifiers used by the C runtime interface never clash with program variables", "statement": "For every program, identifiers the C backend reserves for runtime functions, struct fields and locals are pairwise distinct and distinct from every variable of the program, whose numbering starts above them.", "quantifier": "all programs", "why_tests_cant": "all programs", "anchors": ["theories/Codegen/toplevel.v", "theories/LambdaANF/toplevel.v:next_id"]}
{"id": "C50", "title": "runtime primitives that allocate reserve what they write", "statement": "For every call of an allocating runtime primitive, from any nursery fill level, every word it writes is below the nursery limit.", "quantifier": "all nursery states", "why_tests_cant": "needs a nearly full nursery", "anchors": ["runtime/prim_int63.c:mk_pair,mk_C0,mk_C1", "runtime/prim_floats.c:mk_float", "runtime/prim_string.c"]}
{"id": "C51", "title": "C backend for CPS programs: compiled programs return what the source returns", "statement": "A program in continuation-passing style and the C program generated for it (functions returning void, arguments in the argument array, heap check with collection at function entry) have the same behaviour: if the source returns a value, the C program returns a representation of it or is aborted by the collector for lack of memory; if the source diverges, the C program does not return; no store is outside the free part of the nursery and no uninitialised variable is read, whatever the fill level of the nursery and wherever the collector moves objects.", "quantifier": "all closed CPS programs, all collectors meeting the interface in gc.h, all initial heaps, all numbers of C parameters, all run lengths", "why_tests_cant": "a collection may happen at any function entry, and errors in the heap check show only for particular fill levels", "anchors": ["theories/Codegen/LambdaANF_to_Clight.v:compile,translate_body,reserve,max_allocs,make_fundef_info", "runtime/gc.h:garbage_collect", "theories/Codegen/toplevel.v"]}
{"id": "C52", "title": "C backend for CPS programs: generated functions declare the variables they use", "statement": "Every variable read or assigned in a generated C function, including the auxiliary variable used for matches, is a parameter or declared local of that function, or the name of a function of the program; so the C compiler accepts it.", "quantifier": "all compiled CPS programs, all their functions and the main function", "why_tests_cant": "the main expression of typical test programs contains no match; the set of programs is infinite", "anchors": ["theories/Codegen/LambdaANF_to_Clight.v:mkFun,translate_funs,make_case_switch,get_allocs"]}
{"id": "C53", "title": "CPS code: string literals are laid out as the runtime reads them", "statement": "For every byte string, the words the CPS backend emits for a literal form a string block from which the runtime recovers the length and the bytes, as for the direct-style backend (C18).", "quantifier": "all byte strings", "why_tests_cant": "infinitely many strings; the two backends have separate encoders", "anchors": ["theories/Codegen/LambdaANF_to_Clight.v:encode_list,compile_string", "runtime/prim_string.c:prim_strlen"]}
{"id": "C54", "title": "Erased programs keep their meaning when they enter the pipeline", "statement": "For every well-formed λ-box program produced by erasure, the converted program evaluates to the conversion of the value the erased program has; it has no other value; it terminates exactly when the erased program does, and first-order results (constructor trees, primitives) are identical. Delayed computations (lazy/force, the encoding of coinductive values) are converted to functions and applications with the same results. Composed with the later phases: the Wasm and C code returns the representation of the value of the erased program.", "quantifier": "all inductive tables without parameters, all well-formed global contexts, all closed well-formed terms, all values; for the converse, all programs that do not use a delayed computation as a function or a function as a delayed computation", "why_tests_cant": "infinitely many programs; the correspondence of substitutions under binders and lifting is invisible in results of a few test programs", "anchors": ["theories/LambdaBoxMut/compile.v:compile,lift,compile_ctx,TmkApps", "theories/LambdaBoxMut/stripEvalCommute.v:WcbvEval_hom,wf_compile", "theories/LambdaBoxMut/toplevel.v"]}
{"id": "C55", "title": "Exporting a value from the heap is a deep copy that survives the heap", "statement": "Exporting a value returns unboxed values unchanged without touching the heap. For a boxed value it returns a pointer to the first block of one freshly allocated contiguous region that contains a deep copy (same headers, fields equal up to renaming, sharing kept) of everything reachable from the value and nothing else, with no pointer back into the heap, so that the heap may be freed afterwards. Nothing outside the generations and the allocated regions changes. It fails only if memory runs out, and the program can go on using its heap and its other values.", "quantifier": "all well-formed heaps with any number of generations and remembered-set entries, all roots, all results of malloc", "why_tests_cant": "cyclic and shared structures over several generations, heap shapes and remembered sets are unbounded; a lost root is only noticed when it is used later", "anchors": ["runtime/gc_stack.c:export_heap,garbage_collect_all,do_generation,forward_remset,create_space"]}
{"id": "C56", "title": "Compiled C programs run correctly with the runtime's own garbage collector", "statement": "A program compiled to C in direct style, linked with the generational collector of the runtime and started with a fresh thread info, returns a representation of the value of the source program, however often the collector runs and wherever it moves objects; if the source diverges, so does the program. The program never stores outside the free nursery or its frames, never reads a word that is not there, and never calls the collector with a heap or a frame that violates what the collector relies on. The process is aborted only if malloc fails, one function reserves more words than the nursery has, or more than 2^57 words are in use.", "quantifier": "all programs accepted by the backend (functions with at most 1024 parameters, no float or string literals), all placements of code, stack, descriptors and nursery, all results of malloc, all values of the collector's DEPTH", "why_tests_cant": "whether and when a collection happens depends on the sizes of all intermediate data; a wrong root or an unregistered word shows only if a collection happens at that very point and the memory is reused", "anchors": ["runtime/gc_stack.c:garbage_collect,make_tinfo,create_heap", "runtime/gc_stack.h", "theories/Codegen/LambdaANF_to_Clight_stack.v:translate_body,make_GC_call,translate_fundefs"]}
{"id": "C57", "title": "Compiled C programs compute with 63-bit integers as Rocq does", "statement": "A program that uses the primitive 63-bit integer operations, compiled to C in direct style and linked with the runtime's integer functions and its collector, returns a representation of the value the program has according to Rocq's Uint63 and Sint63; operations that return a carry or a pair allocate their result without losing or overwriting data; such a program has no undefined behaviour.", "quantifier": "all programs accepted by the backend, all 30 registered operations, all operands below 2^63, all states of the nursery when an operation is called", "why_tests_cant": "2^126 pairs of operands per operation; whether an allocating operation overruns the nursery depends on how many words are free at the call", "anchors": ["cplugin/PrimInt63.v", "runtime/prim_int63.c", "runtime/gc_stack.c:garbage_collect", "theories/Codegen/LambdaANF_to_Clight_stack.v:translate_body"]}
{"id": "C58", "title": "Programs that use primitive operations compute with them", "statement": "A primitive operation in a source program is a curried function of its arity: it can be passed around and applied to some of its arguments, and applied to all of them it computes the result of the operation. Compilation, in direct or continuation-passing style and with any optimisations, keeps this: if the program evaluates to data, the Wasm module and the C program compute that data; if it runs forever, so do they; and they have no undefined behaviour unless an operation is applied outside its domain.", "quantifier": "all closed programs over any set of primitive operations, all arities, all numbers of arguments an operation is applied to, all compiler options, both styles and all backends", "why_tests_cant": "operations are eta-expanded by the compiler according to their arity and then inlined or passed as closures depending on the program; the argument order and the number of nested functions matter for programs of any shape", "anchors": ["theories/LambdaANF/LambdaBoxLocal_to_LambdaANF.v:convert_prim", "theories/LambdaANF/LambdaBoxLocal_to_LambdaANF.v:cps_cvt", "theories/LambdaBoxLocal/expression.v:Prim_e", "theories/LambdaBoxLocal/fuel_sem.v", "cplugin/PrimInt63.v", "runtime/prim_int63.c"]}
{"id": "C59", "title": "Every emitted Wasm module is valid, instantiates and exports what the host needs", "statement": "Whenever the Wasm backend returns a module, the module passes WebAssembly validation: every function body has its declared type, every index of a local, global, type, function, table or memory exists, constants fit, limits are in range and export names are distinct. It instantiates without a trap; an indirect call with a number of arguments the backend allows reaches the function whose index is on the stack if that function has as many parameters, and no other. The host finds the main function, the result, the out-of-memory flag, the allocation pointer and the memory under their names, whatever the functions of the program are called; instantiating the module and calling the export runs the program.", "quantifier": "all programs the backend accepts, of any size, all constructor and primitive environments, all names of functions, all engines", "why_tests_cant": "validation is a property of the whole emitted code; a program with an unusual number of arguments, locals, branches, primitives or with a clashing function name would be rejected by the engine only when that program is compiled", "anchors": ["theories/CodegenWasm/LambdaANF_to_Wasm.v:LambdaANF_to_Wasm", "theories/CodegenWasm/LambdaANF_to_Wasm.v:sanitize_function_name", "theories/CodegenWasm/LambdaANF_to_Wasm.v:list_function_types", "theories/CodegenWasm/LambdaANF_to_Wasm.v:table_element_mapping", "theories/CodegenWasm/LambdaANF_to_Wasm_restrictions.v:check_restrictions", "theories/CodegenWasm/LambdaANF_to_Wasm_primitives.v", "theories/CodegenWasm/toplevel.v"]}
{"id": "C60", "title": "C programs can call compiled functions", "statement": "A C program that runs a compiled program (direct style), applies the closures it obtains to arguments with the generated function call, builds values with the generated constructor functions after making room for them and takes values apart, any number of times in any order, obtains at every step a representation of the value the operation has in the compiled language, and the values it keeps in a registered stack frame stay valid across all later calls and collections; if an operation does not terminate neither does the C program; it has no undefined behaviour.", "quantifier": "all compiled programs, all sequences of operations, all settings of the number of C parameters, all closures and arguments, all states of the heap and any collector meeting its specification, in particular the one of the runtime", "why_tests_cant": "whether a value held by C survives depends on when collections happen during later calls; sequences of calls are unbounded and the placement of arguments depends on an option", "anchors": ["theories/Glue/glue.v:make_call", "theories/Glue/glue.v:constructors_from_ctors", "theories/Codegen/LambdaANF_to_Clight_stack.v:translate_fundefs", "runtime/gc_stack.c:garbage_collect"]}
{"id": "C61", "title": "Compiled programs can call foreign C functions", "statement": "Applying the closure generated for a foreign C function to all its arguments, one application after the other, calls the C function once, with the arguments in their order, and the continuation of the last application receives its result (for a function in IO, applied to the world at the end, the pair of the result and the world); each earlier application only allocates a closure that remembers the arguments so far and changes nothing else in memory.", "quantifier": "all types of foreign functions (any number of arguments, in IO or not), all settings of the number of C parameters, all argument values, continuations, states of memory with enough room, and all behaviours of the C function", "why_tests_cant": "one chain of curried functions per arity and option; the order of the arguments in the chain of environments, room in the nursery and what a C function does to memory cannot be enumerated", "anchors": ["theories/Glue/ffi.v:make_curried_fn", "theories/Glue/ffi.v:make_curried_fns", "theories/Glue/ffi.v:make_one_field", "theories/Glue/ffi.v:env_proj", "theories/Glue/ffi.v:type_to_args"]}
{"id": "C62", "title": "The C text written is the C program generated", "statement": "Reading the text printed for a generated C function by the rules of the C standard (longest tokens, precedence and associativity of operators, declarators, statements, types of constants) gives exactly one function: with the same name, result type, parameters, variables, and a body that does the same. The same holds for types, expressions and statements alone.", "quantifier": "all types, expressions, statements and functions of the fragment of C that is generated, of any size and nesting, all names that are C identifiers, and all meanings of expressions, assignments and calls", "why_tests_cant": "parentheses, spaces between tokens and declarators depend on every combination of operators, casts, signs and nested types; a text that is accepted with another meaning is not noticed by compiling it", "anchors": ["plugin/static/printClight.ml:expr", "plugin/static/printClight.ml:precedence", "plugin/static/printClight.ml:print_stmt", "plugin/static/printClight.ml:print_cases", "plugin/static/printClight.ml:print_function", "plugin/static/printCsyntax.ml:name_cdecl", "plugin/static/printCsyntax.ml:name_function_parameters"]}
{"id": "C63", "title": "Different identifiers have different names in the C file", "statement": "No two functions, variables or temporaries of a generated C file have the same name: the functions of the program and their tables, the main function, the names the compiler itself uses and the C functions the program calls are all told apart. Each name is a C identifier and not a reserved word, and no temporary has the name of a function or variable.", "quantifier": "all identifiers, all name tables with ASCII source names (also with ' and . in them, with equal names and with functions without a name), all lists of C functions and main functions whose names do not end in a number and are not used by the compiler", "why_tests_cant": "clashes depend on which names and numbers a program happens to have, on primes and dots that are replaced, and on names left from programs compiled earlier in the session", "anchors": ["theories/Codegen/LambdaANF_to_Clight_stack.v:ensure_unique", "theories/Codegen/LambdaANF_to_Clight_stack.v:inf_vars", "theories/Codegen/LambdaANF_to_Clight_stack.v:update_name_env_fun_info", "theories/Codegen/toplevel.v:add_prim_names", "plugin/static/printClight.ml:remove_primes", "plugin/static/printClight.ml:add_name", "plugin/static/printClight.ml:temp_name", "plugin/static/camlrocq.ml:extern_atom"]}
{"id": "C64", "title": "The text of the C file does what the compiled program does", "statement": "The characters of the functions in a generated C file, read as C text, with functions, parameters, variables and fields looked up by their names, behave exactly as the compiled program: they compute the value the source program computes or run out of memory, have no undefined behaviour if the program does not go wrong, and do not return if it runs forever.", "quantifier": "all programs without string and float constants whose numbers fit in words, all configurations of the backend, all name tables as in C63, all ways of reading the text, all collectors and primitives that do what they should, all states of memory", "why_tests_cant": "a wrong cast, sign, field, index, precedence or name in the file is seen only by programs that use that form, and only if the run reaches it", "anchors": ["theories/Codegen/LambdaANF_to_Clight_stack.v:translate_program", "theories/Codegen/LambdaANF_to_Clight_stack.v:translate_body", "theories/Codegen/LambdaANF_to_Clight_stack.v:mkFun", "theories/Codegen/LambdaANF_to_Clight_stack.v:make_GC_call", "theories/Codegen/toplevel.v:compile_Clight", "plugin/static/printClight.ml:print_function", "plugin/static/printCsyntax.ml"]}
{"id": "C65", "title": "Every name used in the C file is declared, and none twice", "statement": "In the text of a generated C file, every temporary used in a function is a parameter of it or declared in it, exactly once; every variable or function used is a local variable, a function of the file, the collector or one of the C functions of the headers; no local variable hides a function; no two functions have the same name, and none has that of a function in the headers.", "quantifier": "all closed programs with distinct binders in which functions are not matched on and the program itself does not end in a call, all name tables as in C63, all ways of reading the text", "why_tests_cant": "a name that is not declared, or declared twice, is seen only for programs that use it; that a C compiler accepts the files of some programs says nothing about other programs", "anchors": ["theories/Codegen/LambdaANF_to_Clight_stack.v:mkFun", "theories/Codegen/LambdaANF_to_Clight_stack.v:translate_program", "theories/Codegen/LambdaANF_to_Clight_stack.v:get_locals", "theories/Codegen/LambdaANF_to_Clight_stack.v:translate_fundefs"]}
{"id": "C66", "title": "The C file is well typed against the runtime's header", "statement": "In the text of a generated C file every expression has a type in ISO C: the fields used exist in struct thread_info and struct stack_frame of the runtime with the types used, called expressions are functions called with arguments of the types of their parameters, what is assigned, passed or returned has a type assignable to the target, only lvalues are assigned to and have their address taken, and no switch has two equal labels.", "quantifier": "all closed programs with distinct binders in which functions are not matched on, no constructor is matched twice and the program itself does not end in a call, all name tables as in C63, all types of the C functions called, all ways of reading the text", "why_tests_cant": "an ill-typed statement is seen only for programs that lead to it, and the flags the plugin passes to the C compiler silence its warnings; that a C compiler accepts some files says nothing about others", "anchors": ["theories/Codegen/LambdaANF_to_Clight_stack.v:translate_body", "theories/Codegen/LambdaANF_to_Clight_stack.v:mkCall", "theories/Codegen/LambdaANF_to_Clight_stack.v:assignConstructorS", "theories/Codegen/LambdaANF_to_Clight_stack.v:makeVar", "runtime/gc_stack.h:struct thread_info", "runtime/gc_stack.h:struct stack_frame"]}
{"id": "C67", "title": "CertiRocq Eval prints the value of the term", "statement": "The term that `CertiRocq Eval` (and the tactic certirocq_eval) builds from the result of the compiled program is the normal form of the term that was compiled: the constructors, parameters and arguments found in memory are those of the value, for all types whose values can be read back, whatever order of constructors was chosen with Extract Inductives.", "quantifier": "all declarations of inductive types, all types, all terms in normal form of these types, all orders of constructors, all memories in which the value is represented; composed with the compiler: all programs that evaluate to such a term, all heaps and collections on the way", "why_tests_cant": "the reader counts constant and non-constant constructors of arbitrary declarations, reordered by an arbitrary permutation; tests use a few types, and the permutations of two constructors hide the confusion of a permutation and its inverse", "anchors": ["plugin/certirocq.ml:reify", "plugin/certirocq.ml:find_nth_constant", "plugin/certirocq.ml:find_nth_non_constant", "plugin/certirocq.ml:apply_reordering", "plugin/certirocq.ml:find_reverse_mapping", "plugin/certirocq.ml:certirocq_eval_named"]}
{"id": "C68", "title": "Evaluating a term runs the code compiled for that term", "statement": "In a session, `CertiRocq Eval f` runs code compiled for the definition of f that is current at that point, and the tactic certirocq_eval runs code compiled for its argument; the result is read with the order of constructors the code was compiled with. This holds after going back in the document, closing sections and defining constants again, and compiling always finds a file name that was not loaded before.", "quantifier": "all sequences of definitions, evaluations by command or tactic, changes of the Extract Inductives mapping and steps back; all names, all terms", "why_tests_cant": "compiled terms are cached under names in two tables, one restored by backtracking and one not; which entry is found depends on the whole history of the session", "anchors": ["plugin/certirocq.ml:eval", "plugin/certirocq.ml:certirocq_eval", "plugin/certirocq.ml:find_fresh", "plugin/certirocq.ml:increment_subscript", "plugin/certirocq.ml:cache_certirocq_run_function", "plugin/g_certirocq.mlg:CertiRocq_eval"]}
{"id": "C69", "title": "The generated print functions print the value", "statement": "The function print_T that `CertiRocq Generate Glue` writes for an inductive type T prints, given a value of T made by compiled code (or by make_T_C) and the print functions of its parameters, the constructors of that value and of its arguments, in the order and nesting of the value; functions, types and propositions are printed as markers.", "quantifier": "all sets of declarations of inductive types given to the generator, with parameters and indices; all values of these types; all memories that represent the value", "why_tests_cant": "the arguments of a printer are found by counting binders of the type of a constructor, over parameters, arguments and the types of the block; a wrong count only shows for some combination of parameters, indices and arguments", "anchors": ["theories/Glue/glue.v:generate_printer", "theories/Glue/glue.v:switch_cases", "theories/Glue/glue.v:rec_print_calls", "theories/Glue/glue.v:spine_to_args", "theories/Glue/glue_utils.v:dissect_types", "runtime/get_ordinal.c"]}
{"id": "C70", "title": "Constants realised by C functions are calls of these functions", "statement": "A constant for which `CertiRocq Register` or the clause `Extract Constants` names a C function is compiled to calls of that function, with the number of arguments given (or that of its type) and with the thread info if it is said to allocate. Where a constant is realised several times, the command that compiles decides, and otherwise the latest command. A program with an axiom that is not realised is refused; any other is compiled.", "quantifier": "all sequences of registrations, all clauses, all programs with axioms, all options of the pipeline, both styles (the C file: direct style)", "why_tests_cant": "which of several realisations is used depends on the order of commands and loaded libraries; the number of a primitive is passed through linking, conversion, all optimisations and printing by separate tables that must agree for every program", "anchors": ["plugin/certirocq.ml:cache_registers", "plugin/certirocq.ml:make_pipeline_options", "plugin/g_certirocq.mlg:interp_extract_cnst", "theories/Compiler/pipeline.v:pick_prim_ident", "theories/Compiler/pipeline.v:find_axioms", "theories/LambdaBoxLocal/LambdaBoxMut_to_LambdaBoxLocal.v:find_prim", "theories/LambdaANF/toplevel.v:make_prim_env", "theories/Codegen/toplevel.v:add_prim_names", "theories/Codegen/LambdaANF_to_Clight_stack.v:mkPrimCall"]}
{"id": "C71", "title": "The value that OCaml gets from a compiled program is its result", "statement": "When the compiled compiler is called from OCaml, the value returned to OCaml is a copy of the result of the compiled program: the same constructors and integers, valid after the heap of the compiled program is freed, whenever and however OCaml's garbage collector runs during the copy.", "quantifier": "all results, all behaviours of OCaml's allocator and collector that keep what registered variables reach, all values registered by the caller", "why_tests_cant": "whether a block moves during the copy depends on how full OCaml's minor heap is; a word that is not registered is only wrong if a collection happens between two particular instructions", "anchors": ["bootstrap/certirocqc/certirocqc_wrapper.c:copy_value", "bootstrap/certirocqc/certirocqc_wrapper.c:certirocq_pipeline_wrapper"]}
{"id": "C72", "title": "Running a program shows its output and comes to an end", "statement": "CertiRocq Run shows each line the compiled program writes, standard output as notices and error output as warnings, shows that the program failed if it did, and ends when the program ends; the C compiler run by CertiRocq Eval is waited for and its outputs and status are returned.", "quantifier": "all programs (sequences of writes to both outputs and reads), all capacities of pipes, all interleavings of the program with the plugin", "why_tests_cant": "whether both sides wait for each other depends on the amount written, the order of the writes and the scheduling; a test fixes one of each", "anchors": ["plugin/certirocq.ml:read_line", "plugin/certirocq.ml:execute", "plugin/certirocq.ml:run_program"]}
{"id": "C73", "title": "Commands write the files their options name and run what they built", "statement": "The options of a command take effect, the last one of each kind; the files a command writes lie in the build directory and have the name and extension given; CertiRocq Run compiles the file written, links the object made and the runtime the program is made for, and runs the program linked; CertiRocq Eval compiles the file written.", "quantifier": "all lists of options, build directories, file names, extensions, current directories and lists of objects", "why_tests_cant": "names are put together in different ways by different commands and pass through a shell; only combinations of options, and names with particular characters, show differences", "anchors": ["plugin/certirocq.ml:make_options", "plugin/certirocq.ml:make_fname", "plugin/certirocq.ml:compile_C", "plugin/certirocq.ml:write_c_driver", "plugin/certirocq.ml:compile_wasm", "plugin/certirocq.ml:ffi_command", "runtime/certirocq_run_main.c:main"]}
{"id": "C74", "title": "Numbers and strings are the same in Rocq and OCaml", "statement": "Numbers and strings passed between the extracted compiler and the OCaml code around it arrive unchanged: identifiers, integer constants of 32 and 64 bits and strings of bytes on the way to the printed C file, options and names on the way to the compiler.", "quantifier": "all positive numbers, integers, natural numbers, bytes and strings, and all contents of new buffers", "why_tests_cant": "wrapping integers and tables of 256 rows are right on the small values tests use; a function that is off by one is not noticed where its result is only compared with itself", "anchors": ["plugin/static/camlrocq.ml:P", "plugin/static/camlrocq.ml:N", "plugin/static/camlrocq.ml:camlint_of_coqint", "plugin/static/camlrocq.ml:coqstring_of_camlstring", "plugin/static/caml_byte.ml:char_of_byte", "plugin/static/caml_bytestring.ml:caml_string_of_bytestring", "plugin/static/caml_nat.ml:nat_of_caml_int"]}
{"id": "C75", "title": "Headers and C files of compiled programs can be used together", "statement": "The C file of a compiled program compiles, and the header of a compiled program can be included in any C file, in any order with the headers of other programs and any number of times: it declares the program, and all that the declarations need is declared above, once.", "quantifier": "all sets of names of programs, both calling styles, all sequences of included headers", "why_tests_cant": "include guards are computed from file names and share one name space with the guards of the runtime's headers and of all other programs; only particular names, and particular combinations of headers, show a clash", "anchors": ["plugin/static/printClight.ml:guardify", "plugin/static/printClight.ml:print_dest_names_imports", "plugin/certirocq.ml:compile", "plugin/certirocq.ml:compile_C", "runtime/gc_stack.h", "runtime/gc.h", "runtime/values.h", "runtime/config.h"]}
{"id": "C76", "title": "Files generated for several programs can be linked into one program", "statement": "The C files of programs compiled with different names for their main functions, and files of glue code generated for different types, define different names, so that they can be linked into one executable.", "quantifier": "all pairs of programs with their names, functions and primitives; all pairs of files of glue code", "why_tests_cant": "each test links one program; whether two programs define a common name depends on the numbers the compiler gives to functions and tables in both of them", "anchors": ["theories/Codegen/LambdaANF_to_Clight_stack.v:make_fundef_info", "theories/Codegen/LambdaANF_to_Clight_stack.v:add_bodyinfo", "theories/Codegen/LambdaANF_to_Clight_stack.v:ensure_unique", "plugin/static/printClight.ml:print_globdef", "theories/Glue/glue.v:make_glue_program", "theories/Glue/glue.v:make_literals_bundle"]}
{"id": "C77", "title": "Messages of a program are shown as they were sent", "statement": "When a compiled program calls msg_info, msg_notice, msg_debug and user_error, CertiRocq Run and CertiRocq Eval show the user each message, one by one, in order and unchanged, up to the first error, which makes the command fail.", "quantifier": "all sequences of calls with all byte strings, all capacities of pipes and all interleavings of the program with the plugin", "why_tests_cant": "whether messages stay apart depends on the kinds and bytes of all messages of a run, and on how the output of the program is read while it runs", "anchors": ["plugin/RocqMsgFFI.v:msg_info", "runtime/rocq_c_ffi.c:rocq_msg_info", "runtime/rocq_c_ffi.c:rocq_msg_notice", "runtime/rocq_c_ffi.c:rocq_msg_debug", "runtime/rocq_c_ffi.c:rocq_user_error", "runtime/rocq_ffi.c:rocq_msg_info", "plugin/certirocq.ml:rocq_msg_info", "plugin/certirocq.ml:run_program"]}
{"id": "C78", "title": "Operations of the libraries are called as their C functions are defined", "statement": "When a program uses operations that the libraries PrimInt63, PrimFloats, PrimString, GMP and RocqMsgFFI register, every call of a function of the runtime in its C file passes the arguments the function is defined with: the same number, and the thread first exactly if the definition has it; the name is defined exactly once in the runtime, and the header that the file includes declares it as it is defined.", "quantifier": "all programs, all sequences of loaded libraries, all options of the compiler, both conversions", "why_tests_cant": "calls go through a cast, so that the C compiler does not compare them with the definition, and a call with wrong arguments often seems to work; each operation would have to be called in each position of a program", "anchors": ["plugin/PrimInt63.v", "plugin/PrimFloats.v", "plugin/PrimString.v", "plugin/GMP.v", "plugin/RocqMsgFFI.v", "runtime/prim_int63.c", "runtime/prim_floats.c", "runtime/prim_string.c", "runtime/prim_string.h", "runtime/certirocq_gmp.c", "runtime/rocq_c_ffi.c", "plugin/g_certirocq.mlg:interp_extract_cnst"]}
{"id": "C79", "title": "Case distinction on large natural numbers", "statement": "In a compiled program GMP.nat_case n z s is z tt if n is 0, and otherwise s applied to the predecessor of n, for numbers of any size: the functions of the runtime call the closures of the program with the right arguments, and what they return is returned.", "quantifier": "all compiled programs, all closures, all numbers, all states in which compiled code calls the runtime, all numbers of C parameters, all collections", "why_tests_cant": "the closure and the number may move when memory is collected for the predecessor, which depends on how full the nursery is when a large number is met; how functions take their arguments depends on an option", "anchors": ["plugin/GMP.v:nat_case", "runtime/certirocq_gmp.c:z_nat_case", "runtime/certirocq_gmp.c:z_nat_case_untyped_erasure", "runtime/certirocq_gmp.c:z_nat_pred", "runtime/certirocq_gmp.c:mk_gmp_int", "runtime/gc_stack.c:closure_call"]}
{"id": "C80", "title": "The text of an intermediate program tells which program it is", "statement": "CertiRocq Show IR writes a text from which the program can be read off: two programs with the same text bind, use and match the same variables, constructors, numbers, primitive operations and functions, and return the same data.", "quantifier": "all programs of any size and depth, all tables of names of variables and constructors, all literals whose text tells them apart", "why_tests_cant": "that no two of infinitely many programs share a text is not a matter of examples; names are chosen by users and may be those the printer makes itself", "anchors": ["theories/LambdaANF/cps_show.v:show_exp", "theories/LambdaANF/cps_show.v:emit_exp", "theories/LambdaANF/cps_show.v:show_var", "theories/LambdaANF/cps_show.v:show_con", "theories/LambdaANF/cps_show.v:show_vars", "theories/common/AstCommon.v:string_of_specfloat", "theories/Compiler/pipeline.v:show_IR"]}
{"id": "C81", "title": "Quoted programs reach the compiled compiler and checker in the form they expect", "statement": "When the bootstrapped compiler or checker is run on a constant, the quoted program that it is given has all universes and all sets of levels and constraints as compiled programs represent them, with their proof fields, wherever they are in the program, and is otherwise the program that was quoted; no program is left out.", "quantifier": "all quoted programs of any size and depth: terms, declarations, inductive types, contexts, universe declarations", "why_tests_cant": "the conversion casts between types, so that a universe that is missed in one kind of declaration is not noticed by the type checker of OCaml and reads as a wrong block only when the compiled program looks at it", "anchors": ["bootstrap/certirocqc/certirocqc_plugin_wrapper.ml:fix_quoted_program", "bootstrap/certirocqc/certirocqc_plugin_wrapper.ml:fix_term", "bootstrap/certirocqc/certirocqc_plugin_wrapper.ml:fix_universe", "bootstrap/certirocqchk/certirocqchk_plugin_wrapper.ml:fix_quoted_program", "bootstrap/certirocqchk/certirocqchk_plugin_wrapper.ml:fix_term"]}
