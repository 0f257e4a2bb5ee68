# Formal model of CertiCoq/certicoq in Lean 4

## 1. What is here

* `properties.jsonl` – the English properties (C01 …).
* `lean/Verif/…` – the model and the proofs.
* `MANIFEST.json` – which theorem settles which property, and how far.
* `seeded/LOG.jsonl` – mutation tests: a realistic bug seeded into the model and what failed.

Each area has the same layout of Lean modules:

* `X/Model.lean` – the code, function by function. Every definition cites the file and lines it models
  and says where it simplifies.
* `X/Spec.lean` – the small specification (plain mathematics, no reference to the model's helpers).
* `X/Lemmas*.lean` – proofs that are only means.
* `X/Props.lean` – the property theorems, each followed by an `example` showing that the hypotheses
  are met by a concrete non-trivial case.

## 2. Trusted base

* Lean 4.33's kernel and the three standard axioms (`propext`, `Classical.choice`, `Quot.sound`).
  No other axiom, no `sorry`, no `native_decide`, no `bv_decide`. (`decide` is used only for closed
  witnesses of refutations, for examples, and for finite tables that the code itself contains.)
* That the Lean definitions transcribe the cited code. This is by inspection: nothing of CertiCoq is
  executed here.
* C semantics used: 64-bit two's complement words; signed overflow and over-shift are *not* assumed to be
  benign: where the C code can reach them the model yields a distinct outcome; memory is word addressed
  (all accesses of the modelled functions are word sized, bytes of strings are extracted arithmetically).
* Wasm semantics used: the arithmetic of i32/i64 instructions, structured control flow and byte memory
  as far as the emitted instructions need it.

## 3. Areas, what is modelled, how it is proved

| Area | Properties | Model | Method |
|---|---|---|---|
| int63 in C | C01–C08, C10 | `runtime/prim_int63.c`, `values.h`, words are `BitVec 64` | arithmetic, `toNat` reasoning; loop invariants for `diveucl_21`, `head0`, `tail0`. Refutations by witness where the code is wrong |
| int63 in Wasm | C09 | the emitted instruction lists of `LambdaANF_to_Wasm_primitives.v`, run by a small Wasm interpreter | symbolic execution of the emitted list, loop invariant |
| GC | C11–C17, C55 | `runtime/gc_stack.c` over a word memory with explicit spaces | Cheney invariant; graph isomorphism via the forwarding map |
| strings, floats, GMP, FFI | C18–C22, C48, C50 | `prim_string.c`, `prim_floats.c` (bit-level part), `certirocq_gmp.c`, `rocq_c_ffi.c`, `encode_list` | induction on byte lists, arithmetic |
| constructor representation, C backends, glue | C23–C28, C45, C49, C51–C53 | `convert_env`, `make_ctor_rep`, `makeTagZ`, `max_allocs`, `translate_body`, `process_ctors`, glue functions | induction over types/terms; a small C-like statement semantics |
| Wasm backend | C29–C31 | `LambdaANF_to_Wasm.v`, restrictions | same, over the Wasm interpreter |
| source languages | C32, C33, C47, C54 | erased λ-box, LambdaBoxMut and LambdaBoxLocal terms and evaluators | rule induction |
| LambdaANF passes | C34–C44, C46 | `cps.v`, `eval.v`, and the passes as functions on terms | simulation relations by induction on derivations; freshness invariants |
| compiled programs as a whole | C56–C58, C60, C61, C79 | the C backend with the collector, the primitives and foreign functions (`CGen`), `glue.v`, `ffi.v` | simulation, composed from the areas above |
| Wasm modules | C59 | `LambdaANF_to_Wasm.v` with the typing rules of Wasm | typing by induction on terms |
| text of the C file | C62–C66 | `printClight.ml`, `printCsyntax.ml`, names, `translate_program` as text | a reader of C text as the specification; injectivity of names; scopes and types by induction |
| plugin: results and constants | C67, C68, C70 | `reify`, tables of compiled terms, `Register` | induction on values and on sessions |
| print functions, bootstrap wrappers | C69, C71, C81 | `glue.v` (printers), `certirocqc_wrapper.c`, `certirocqc_plugin_wrapper.ml`, `certirocqchk_plugin_wrapper.ml` | induction on values and on quoted programs; invariant of the copying loop |
| plugin: processes, files, conversions, messages | C72–C74, C77 | `certirocq.ml` (`execute`, `run_program`, options, file names), `camlrocq.ml`, `rocq_c_ffi.c` | invariant of a transition system; decision logic; induction |
| libraries | C78 | the registrations of `PrimInt63.v`, `PrimFloats.v`, `PrimString.v`, `GMP.v`, `RocqMsgFFI.v`, the parameters of the C functions | tables checked as a whole, composed with C70 |
| text of intermediate programs | C80 | `cps_show.v` | the text is prefix-free by induction on terms; simulation for programs without tags |
| several programs together | C75, C76 | headers with their guards, external names | induction on included headers; injectivity of names |

### What is not modelled
* Parsing, extraction from Rocq, MetaRocq erasure (outside this repository). The language erasure produces and its evaluation
  relation are modelled (Box/Model.lean) after MetaRocq's published definitions, which /repo imports but does not contain.
* IEEE arithmetic itself (add, mul, sqrt … on doubles are hardware operations); the GMP library itself
  (taken as exact integer arithmetic); CompCert and the C compiler; the Wasm engine.
* Of the printers, the C printer is modelled (C62, C63 and the CPrint modules); the printer of `Show IR` is (C80); printers of other intermediate terms, values and environments (debugging output) are not.  Of the OCaml plugin, the reader of
  results, the tables of compiled terms, registration of constants, options and file names, processes, conversions and messages are modelled (C67, C68, C70, C72–C74, C77); the
  grammar of the commands, the conversion of Rocq's own terms and the dynamic loader are not.  CompCert's OCaml code that is copied into plugin/static is modelled as far as the
  printer uses it.

## 4. Per property plan

* C01–C03, C08: proved for all words. C02 includes zero divisors.
* C04: `eqb`, `compare` proved; `ltb`/`leb` compare *tagged signed* words: refuted by witness, partial theorem below 2^62.
* C05: `divs`, `ltsb`, `lesb`, `compares` proved; `mods`, `asr` refuted, partial on non-negative inputs.
* C06: all four refuted (signed compare of tagged words / untagged compare), partial theorems on the range where they hold.
* C07: `diveucl`, `diveucl_21`, `addmuldiv` proved; `mulc` loses a carry when both operands have bit 62: witness and partial.
* C09: all Wasm primitives proved.
* C10: proved.
* C11–C16: GC model; graph isomorphism, space, barrier, invariant over operation histories.
* C17: refuted (`reset_heap` leaves `limit` lowered, so stale remembered-set entries stay), partial for empty remembered sets.
* C18: proved for every byte string. C19: refuted for make/sub/cat/compare, length/get proved.
* C20: `next_up`/`next_down` proved least-greater/greatest-less on bit patterns with their rational values;
  `compare` compares addresses: refuted.
* C21: GMP as exact integers; per-operation theorem or refutation.
* C22, C48: FFI string conversion proved; `get_unboxed_ordinal` refuted.
* C23: proved under ordinal bounds (< 251 for scanned boxed constructors); refuted without.
* C24–C26: C backend; C25 refuted for float/string literals, partial without them; C24 refuted for types with more than 256
  constructors with arguments. C27: glue.
* C28: refuted (`a_b` vs `a.b`), partial for names without underscore.
* C29–C31: the whole of `LambdaANF_to_Wasm.v` (`Wasm/GenModel.lean`) run by the interpreter of `Wasm/Sem.lean`. Values are
  related to words by `Rep` (GenSpec.lean). The simulation is by induction on the source expression inside an induction on the
  call depth; the code of an expression returns with the representation of its result, or with the flag set after the engine
  refused to grow the memory, and runs out of fuel only if the source does. No trap and preservation of divergence follow.
  `OrdOk`, the assumption on ordinals, is shown to hold of every environment `convert_env` builds (`C29_ordinals`).
  C31 is an equivalence with limits stated for every subexpression.
* C33, C47: determinism through the fuelled interpreters (soundness, completeness, monotonicity); finality of values by
  rule induction.
* C32: `trS σ` translates a term with each constant replaced by its (closed) value; it commutes with substitution and
  evaluation in both directions; the nested lets of `mkLets` evaluate to exactly such a `σ` (`link_iff`).
* C34: the conversion of LambdaBoxLocal_to_LambdaANF.v:600-787 function by function (the monad is a fresh-variable
  counter), run in lockstep with an environment interpreter (fuel_sem.v); the environment interpreter is shown equal to
  the substitution semantics of expression.v (values, divergence, getting stuck), which is what the theorems mention.
  Constructor tags are those of `convert_env` (C45).
* C35: the conversion of LambdaBoxLocal_to_LambdaANF.v:204-400 function by function. Every call of a converted program is
  a tail call, so `Goes c` (after `c` calls the program runs into another one) composes; a source value gives a run into
  the continuation, a source run out of time gives a target run out of time at the same bound.
* C43: fresh binders, per pass (conversion: `C43_anf_conversion`, `C43_cps_*`; closure conversion and hoisting: C36, C37; the others: `C43_uncurry`, `C43_inline`, `C43_shrink`, `C43_loop`, `C43_lambda_lift`, `C43_dpe`).
* C38: uncurrying as a chain of rounds; in a round any number of curried functions are split. Calls are not one-to-one (a
  call of a wrapper costs one more), so the rounds are proved with the flexible simulation of Flex.lean: at source bound
  `n` there is a target bound with related results, and conversely.
* C40: the pass of lambda_lifting.v for an arbitrary decision procedure and arbitrary limits. A static relation records,
  for each scope, the lifted functions known there with the variables they take; the invariant says that a known function
  and its lifted form agree when the latter is given the values of those variables. Wrappers cost one more call (Flex.lean).
* C39: the pass of inline.v for an arbitrary heuristic (any state type, any answers) and any depth. The relation `RE` says
  that the target is a renaming of the source in which calls of known functions may be replaced by renamed bodies. The
  simulation invariant keeps, beside the two environments, a virtual one in which the bodies of the known functions are
  closed; inlining saves calls, so the flexible simulation is used.
* C41: the shrink reducer of shrink_cps.v with its census. Three inductions over `contract`: sizes and binders never
  exceed those of the term plus those of the known functions that are still to be placed (`contract_massive`), hence the fuel
  suffices (`contract_total`); the census stays an upper bound on the uses and a function is placed at most once
  (`contract_good`, whose invariant is `Pre`/`Post` of ShrInv.lean); source and result are related by `SE` (ShrSim.lean), which
  implies `Preserves`: facts about known constructors and functions hold in a virtual environment of the target, inlining
  saves calls (Flex.lean).
* C36–C42, C44, C45: LambdaANF passes, see the notes in MANIFEST.json.
* C46: `anf_pipeline` and `make_anf_options` (toplevel.v:126-266) are modelled as the composition of the models of the passes
  (ANF/PipeModel.lean), for every setting of the options and every table of marks left for the inliner; `Step` in PipeStep.lean
  is the contract each pass meets. E2E/Front.lean puts the conversion (direct or continuation-passing style) in front of it,
  E2E/WasmProps.lean, E2E/CProps.lean and E2E/CpsCProps.lean a backend behind. The program in continuation-passing style repeats one binder, which
  the first shrink pass removes (ShrCps.lean). For C, the backend itself checks that calls agree with the table of
  functions (CGen/Calls.lean: acceptance implies agreement), so only the bound of 1024 arguments is a hypothesis on the optimised
  program; that the backend accepts it (C46_c_total_partial) is proved for programs whose calls agree with their tags. In continuation-passing style all calls are tail calls; the passes keep it so because only a
  call in the middle of a function makes another one (`Feat.letcall`).
* C49: finite table of identifiers plus the bound on program variables.
* C51: simulation as for C24, at function entry `exec_reserveV`; partial: no float and string literals, no allocating primitives,
  a collector that does not move the end of the nursery. C52: variables used by generated code, by induction on the
  translation. C53: words of literals on the byte-addressed memory of C18.
* C54: λ-box terms with the evaluation and well-formedness the repository assumes of them (flags of stripEvalCommute.v:32-66),
  `compile` and `compile_ctx`. Forward: rule induction, with `compile` commuting with closed substitution (`compile_csubst`; under a
  delayed computation this is commutation of `lift` with substitution) and the reversed one-by-one substitution of the arguments of
  a branch agreeing with `instantiatel`. Converse: induction on the fuel of the LambdaBoxMut evaluator, up to the stuck states
  `Confuses`. E2E/BoxProps.lean composes with C32, C46 and the backends.
* C55: `garbage_collect_all` and `export_heap` on the GC model (ExportModel.lean): the collections up to the last generation preserve
  the graph reachable from the local root frame (C11–C14 iterated), the last two copies go to regions of exactly the used size; the
  from-space may now be copied into a to-space as large as its *used part*, for which the Cheney invariant was generalised (`fe`).
* C50: each allocating primitive with the number of words it writes against the number it reserved.

* C56: CGen/RtModel.lean reads a state of generated code (memory, frames, `struct heap` stored in memory, code addresses) as a
  state of the GC model, runs `GC.garbageCollect`, and reads the result back (`Rt.collect`; undefined in states its proof does not
  cover). `heapI_laws` (allocation keeps the collector's invariant, from `alloc_ok`) and `collect_ok` (`GcOk`, from
  `garbageCollect_spec`) instantiate C24-C26; `Asks` follows requests through the execution to find why a process is aborted.

* C57: CGen/Prim/IntModel.lean runs the functions of prim_int63.c (C01-C08) on the words and the memory of generated code, through the
  table of cplugin/PrimInt63.v, with the allocation of carries (which calls the collector) and pairs (which does not). `PrimsOk` is
  proved for operands on which the functions are right (`Safe`), for any collector; with C56 this gives whole programs.

* C58: LambdaBoxLocal has no rule for primitive operations (`Prim_e`); Conv/Big.lean gives the rules the rest of the compiler assumes,
  as a big-step relation over operations with an arity and a meaning (`Mode`), and Conv/EnvSem.lean an interpreter that computes it;
  without operations both are the semantics of C33 (`C58_conservative`). The simulations of C34 and C35 have a case for the code of a
  partial application (`VRel.pap`, `prim_sim`); passing an argument to an operation costs one nested body, like a call. C46 and the
  backend theorems are instances; E2E/PrimProps.lean puts C56 and C57 behind.

* C59: Wasm/Valid.lean is the part of the WebAssembly specification about validation (`Typed`, `Module.Valid`) and instantiation, without
  reference to the compiler; Wasm/ModModel.lean adds the other sections of the module to the model of the functions. Typing is by
  induction on the translation, with one lemma per primitive; export names are told apart by the number in front. Not modelled:
  alignment hints (always 2), the binary encoding, and limits of particular engines. E2E/ModProps.lean: what the host sees.
* C60: CGen/HostModel.lean has `call` (glue.v `make_call`, direct style) as a function of the C fragment, `alloc_make_T_C`, and C programs as
  sequences of operations that keep their values in the roots of one frame. The specification (CGen/HostSpec.lean) runs the same operations on
  LambdaANF values. Proof: the per-function simulation of C24 (stated for arbitrary callers, `callC_any`) for a single call, then induction over the
  operations with the invariant that every slot represents its value. The continuation-passing `call` with `halt_clo` is not modelled.
* C61: CGen/FfiModel.lean has the generator of theories/Glue/ffi.v (`make_curried_fn`, `make_curried_fns`, `make_one_field`) producing statements of a
  small C fragment, and their semantics on the memory and thread information of CGen/Clight.lean; the C function is any partial function on its
  arguments and the state.  CGen/FfiSpec.lean has the calling convention, what it is for a closure to have received some arguments, and the sequence
  of applications.  Proved by induction on the arguments left (`C61_all_partial`) from the step and the last call.  Partial: the room and that the C
  function leaves the continuation in place are hypotheses, because the generated code provides neither; continuation-passing style only.
* C62: CPrint/Model.lean is the printer (printClight.ml and the parts of printCsyntax.ml it uses) as a function to characters; a break of OCaml's
  `Format` is one space.  CPrint/Spec.lean is the C side, written from the standard: a lexer with longest match (digraphs and comments included), a
  recursive-descent parser for declarators, expressions, statements and function definitions, and the types of decimal constants.  `Same` says which
  differences are allowed (nesting of sequences, empty statements, `if (!e)`, `-n` for a negative constant), and `exec` that they do not matter for any
  meaning of expressions, assignments and calls.  Proof: neighbouring tokens are separated (`Sep`), so the lexer returns the tokens printed; then by
  induction on the syntax, with a notion of being read at a level of the grammar (`Good`).  Partial: the conditions `ok` exclude what the printer gets
  wrong (section 5); floating-point constants, loops, `goto`, built-ins, volatile and alignment attributes are not modelled; a type name for an array
  without a name is excluded.
* C63: CPrint/NameModel.lean is the way of a name from the name table of the program to the text (`ensure_unique`, `inf_vars`, `add_prim_names`,
  `remove_primes`, `add_name`, `extern_atom`, `temp_name`).  Under `NamesOk` (ASCII source names; the user's own choices do not end in a number) the
  map from identifiers to names is injective on all identifiers, for functions and for temporaries, and the names are C identifiers that are not
  reserved: the numbers are compared from the end of the name.
* C64: CGen/TextModel.lean is the backend for direct style again, with the types, casts, signs, constants, fields and names CGen/Model.lean leaves out: it
  builds the syntax that CPrint prints.  CGen/TextMeaning.lean and TextSpec.lean are a semantics of C text over the memory of CGen/Clight.lean, by names: what
  `*`, `.`, `&`, arithmetic, casts, assignments and calls mean for expressions of any form, and how a function of the file is called.  TextRel.lean relates the two
  generators, TextSim.lean shows that related statements run alike, TextOk.lean that the printer handles what is generated (C62) and that names are told
  apart (C63), TextRun.lean composes these.  CGen/TextProps.lean has the theorems for LambdaANF programs (with C24, C25), E2E/TextProps.lean from source programs
  (with C58).  Partial: no string and float constants, no declarations of types and functions; integers are not truncated (C24).
* C65: CGen/ScopeSpec.lean says when the names of a file are in order (`FileScoped`); CGen/ScopeGen.lean follows the generator of CGen/TextModel.lean and
  collects what each statement uses; CGen/ScopeProps.lean compares this with what is declared and carries it over to the text (C62, C63).  Partial: the
  program itself must not end in a call, because `translate_program` does not declare `$result` (`C65_result_refuted`).  The
  direct-style conversion always ends the program with `Ehalt`, so its programs do not come to this.  Observed, not a theorem: functions that need no roots
  declare `value roots[0]`, which ISO C does not allow.
* C66: CGen/TypeSpec.lean is the typing of C expressions and statements (the fragment the generator uses: integers, pointers, arrays, functions, structures), with the
  usual arithmetic conversions, decay and the constraints on assignments, and the declarations of runtime/gc_stack.h.  CGen/TypeGen.lean follows the
  generator of CGen/TextModel.lean, CGen/TypeProps.lean checks the names of fields against the header and carries the result over to the text.  Partial: functions
  stored in data are assigned to integers without a cast (`C66_closure_refuted`), so that the theorem has two parts: with this conversion
  allowed, and without it for programs that only call functions.  `long` and `long long` are told apart only as types: no conversion between integers is refused, as in C.
* C67: Reify/Model.lean is the reader of results (plugin/certirocq.ml:649-800), over the memory of the C backend.  Reify/Spec.lean says what a term of a type is, and what is
  computed for it (erasure of parameters and proofs, order of constructors).  `C67_reify_partial` by induction on the typing of the term, `C67_eval_partial` composes it with C56
  (E2E/ReifyProps.lean).  `C67_mapping_iff`: which orders of constructors are read back right.  Not expressed: types of arguments that mention earlier arguments (the
  reader does not substitute them), values of universes and functions (refused before compilation).
* C68: Reify/SessionModel.lean has the two tables of the plugin, the part of the state that Rocq restores (`Summary`), the counter of the tactic and the dynamic loader (a path loaded before is not loaded
  again); commands are definitions, mappings, steps back and evaluations.  `C68_eval_partial` by an invariant over all states that can be restored; `C68_fresh` by a measure that grows with each attempt.
* C69: Glue/Model.lean has the analysis of constructor types (`dissect_types`), the statements generated for the arguments and a run of the generated functions over memory (with the tag functions of
  C27).  Glue/Spec.lean says what the values of declared types are, how they lie in memory and what their text is, without the analysis; how a declaration is given to the generator is a relation on de Bruijn
  terms.  `C69_print_partial` by induction on the typing of the value, with an invariant on the context of the analysis.

* C70: Reg/Model.lean has the registration commands, the numbering of primitives, the tables made from it and the check for axioms; Reg/Calls.lean says what the calls in a C file are.  Which entry decides is
  specified by positions in the session (`Latest`, `Realised`), apart from the tables.  `C70_closed` generalises linking to environments with axioms; `C70_compiled` carries "every primitive is that of a
  declared constant, with its arity" through conversion and pipeline with the feature lemmas of C46; `C70_text_partial` is an induction over the C generator.

* C71: Boot/Model.lean has `copy_value` over two memories, one of which OCaml's collector moves at every allocation (any allocator with `Law`, Boot/Spec.lean, which follows OCaml's manual: registered
  variables and what they reach are kept, nothing else).  `C71_copy_partial` by induction on the data, with the invariant that the registered variables of the nested calls hold partly filled trees that
  share no block.  OCaml's runtime is not in /repo; `Law` is an assumption about it, met by an allocator that moves everything (`mover_law`).

* C72: Proc/Model.lean has the program and the plugin as two processes with bounded pipes, as a step relation; which of the two makes the next step, and how many bytes a read returns, is open.  The
  invariant (`Proc.Inv`) says that what was shown, with the lines of what is still in buffers, pipes and the rest of the program, is what the program writes.  A measure bounds the number of steps.
  `C72_completes_iff` says exactly which programs come to an end.  The operating system's pipes and OCaml's channels are not in /repo and are modelled after their manuals.

* C73: Files/Model.lean has the options, the names of the files of each command and the command lines; Files/Spec.lean gives paths, command lines and the arguments of a C compiler a meaning after their
  manuals (plain characters, blanks and single quotes for the shell; no symbolic links and no `..` for paths).  Theorems by induction on the strings, for all options.

* C74: Bnd/Model.lean has the conversions with OCaml's integers as words of 63, 32 and 64 bits and the two tables of bytes row by row; inductions on numbers and strings, the tables are checked completely.
* C75: Hdr/Model.lean has the files the plugin writes around a program, the headers of the runtime, the search for included files and the part of the preprocessor for include guards; Hdr/Spec.lean
  says what each text needs above it and when headers work (`HeadersWork`, `CFileWorks`).  Hdr/Props.lean shows exactly when they do (`C75_headers_iff`, by induction on the included headers with the set of
  defined macros as invariant, and `C75_cfile_iff`).
* C76: Link/Model.lean collects the names with external linkage of a C file, with the tables of functions, over CPrint/NameModel.lean; Link/Props.lean shows exactly when two programs can be linked
  (`C76_links_iff`, from the injectivity of the numbering of names).
  Link/Generated.lean ties the names to the functions of C64 (`C76_generated`).
* C77: Msg/Model.lean has the four functions of rocq_c_ffi.c over the string conversion of C22, and the callbacks over the conversion of C74; Msg/Props.lean composes them with the
  driver certirocq_run_main.c and the runs of C72, and shows exactly when the messages are shown one by one (`C77_run_iff`, by counting lines).
* C78: Lib/Model.lean has the lines of the libraries and the parameters of the C functions as tables (definitions from runtime/*.c, declarations from runtime/*.h).  The tables are finite and are
  compared as a whole by the kernel; `C78_calls` carries this over to the calls of all programs by C70.  Not modelled: the C types of the parameters.  The casts in the text take and give `value`
  (a `long` in values.h), while some functions take or give pointers or unsigned words of the same size; C leaves calls through such casts undefined, common compilers do what is expected.
  The libraries in cplugin have the same lines, without the type of floats.
* C79: CGen/CaseModel.lean has `closure_call` as a C function in the semantics of CGen/Clight.lean and `z_nat_case` over the numbers of C21; CGen/CaseProps.lean reduces calls of closures to
  the function `call` of C60, for at least two C parameters.  Numbers that GMP allocates are not values of LambdaANF, so for them the call that is made is described (`C79_big_partial`).
* C80: IR/Model.lean is `emit_exp` as a function to lists of characters; IR/Lemmas.lean and IR/Props.lean prove that no text is the beginning of another one, so that equal texts come from equal
  programs but for the tags of functions, which are not shown; IR/Sem.lean shows that these do not matter unless a program goes wrong.  The text of floats is `string_of_specfloat`, and
  floats are told apart (`C80_floats`); that of strings is made by MetaRocq and is a parameter: assumed without newlines and telling strings apart (`Ok`).  Not modelled: `emit_val`, `emit_env`, `emit_cenv`.
* C81: Quote/Model.lean has the functions `fix_*` of the two wrappers; Quote/Props.lean says what the places are that differ (universes, sets of levels and of constraints), which are listed for a program
  in order, and what each must become; by induction on quoted programs the list is converted place by place, and what is not a place is unchanged.  Assumed: OCaml and compiled programs represent everything
  else in the same way, and proof fields are not looked at.

### How the LambdaANF passes are modelled and proved

* Terms are mutually inductive (`Exp`, `Brs`, `Defs`), variables and tags are naturals, environments are functions. The
  state monad of a pass is written out (`Comp`: next variable, next tags, constructor environment). Pretty names and the
  error strings of the monad are left out.
* `run S n ρ e` is a fuel interpreter that charges only nested calls; it is shown deterministic, monotone in the fuel, and
  equal to the big-step relation (C44). `Returns`, `Diverges`, `GoesWrong` are its three outcomes.
* The specification of a pass is `Preserves` (Obs.lean): same constructor tree (functions are opaque; a closure record may
  stand for a function), and divergence is preserved.  First-order results are *equal* (`Preserves.data`).
* A pass that keeps calls one-to-one is proved by lockstep: at every fuel `n` both runs give related results. The relation
  on function values is an inductive invariant private to the pass.
* A pass that changes the number of calls is proved with `FRel` (Flex.lean): running out is matched by running out on the
  side whose bound is chosen last.
* Passes compose with `Preserves.trans`; for this every pass also has a well-formedness theorem (binders distinct, closed,
  below the next fresh variable).

### How the C backend is modelled and proved

* `CGen/Clight.lean` is an interpreter for the statements the direct-style backend emits, over a memory of tagged words
  (integers, pointers, code pointers, raw words). Stores outside the free part of the nursery, slots outside the frame,
  argument indices of 1024 or more, uninitialised variables and words of the wrong shape are the outcome `ub`.
  Words are unbounded integers: overflow of headers and literals is the subject of C23 and C01-C10, not of C24-C26.
* `CGen/Model.lean` transcribes `LambdaANF_to_Clight_stack.v` (translation of bodies, matches, calls, heap checks, frames).
* The collector is a parameter satisfying `GcOk` (moves objects reachable from the frames on the list, keeps integers and
  code pointers, leaves `nalloc` words) in states that meet its own heap invariant (`HeapI`, kept by allocation: `HeapI.Laws`) and
  whose frames hold only values (`Th.Ok`); called in any other state it may be undefined. C56 instantiates it with the model of
  `garbage_collect`. Primitives are parameters satisfying `PrimsOk`.
* Theorem: for every fuel, the compiled program and the LambdaANF program have the same outcome (`compileC_sim`), the
  result being a representation of the source value. C25 and C26 are corollaries plus static counts.
* Not modelled: the printing of Clight to C, `args_opt`, names and types.
* The backend for programs in continuation-passing style (`LambdaANF_to_Clight.v`) is `CGen/Cps/Model.lean`; the statements it
  shares with the other one are run by the same interpreter, the rest (void calls, `f_info` tables, the check at function
  entry) by `execV`. The collector is a parameter satisfying `GcOkV`, which is the comment in runtime/gc.h:102-118. Theorem:
  `compileV_sim`, at every fuel, for programs without calls in the middle of functions (`PlainE`).

## 5. Results and disagreements between the code and the properties

Every line below is backed by a theorem whose name ends in `_refuted` (a concrete witness run through the
model), with `_partial` theorems for the inputs on which the code is right.

* **C04** `prim_int63_ltb/leb` compare signed tagged words: `ltb` is right iff both operands are on the same side of 2^62
  (`C04_ltb_wrong_iff`).
* **C05** `mods` uses the unsigned remainder (`-1 rem 2` gives `1`), `asr` shifts logically: wrong on negative operands.
* **C06** `addc`, `addcarryc`, `subc`, `subcarryc` are each refuted by a witness; `addc` never reports a carry.
* **C07** `mulc` loses the carry out of the low word when both operands have bit 62.
* **C15/C16** `certirocq_modify` records the cell only in the nursery's remembered set, and `forward_remset` drops entries
  that do not point into the nursery. So a pointer to a block of an intermediate generation stored, through the barrier,
  into an older block is lost, and a later collection leaves it dangling.
* **C17** `reset_heap` does not forget remembered sets. Partial for heaps without entries.
* **C19** `get` returns a negative number for bytes >= 128; `compare` returns the word 0 for equal strings (the constructor
  `Eq` is the word 1) and orders strings of different lengths by length; `make` and `sub` use tagged lengths, offsets and
  characters as if they were untagged; the common tail of make/sub/cat leaves `alloc` one word short, so the next
  allocation overwrites the last word, and it writes past the limit when the space is exactly what was asked for;
  the header is computed in 32 bits and is wrong from 2^25 - 8 bytes on; `cat` (and `sub`) read the bytes of their operands after memory may have been
  collected, at the old addresses, where the collector has left the new ones (`C19_collect_refuted`).
* **C20** `compare` compares addresses, not values; `ldshiftexp` ignores its exponent and returns the pair of
  `frshiftexp`; `of_uint63` converts the signed reading of its argument (wrong from 2^62 on).
* **C21** `mpz_of_value` adds 2^64 to negative machine integers (so `mul` is wrong on them); `pred` and `neg` are wrong on
  the least machine integer; `abs` gives an even (pointer-like) word on negatives; `add` uses an uninitialised `mpz_t` when
  an operand is big or the sum is negative; big `rem` calls the addition; big `div` rounds differently from small `div`;
  big `leq` decides equality; big `compare` never reports `Lt`; big `max`/`min` return the wrong operand.
* **C22** the result of `malloc` is not checked.
* **C48** `get_unboxed_ordinal` tags its argument again (`Val_long`) instead of untagging it.
* **C50** `mk_pair` reserves nothing and writes three words; the GMP allocation hook does not advance `alloc`, so successive
  allocations return the same address.
* **C24/C51** both C backends accept functions with any number of parameters, but the argument array has 1024 entries and nothing
  checks the bound: with more arguments the caller writes past its end (`C24_arguments_refuted`, `C51_arguments_refuted`).
* **C60** the constructor functions `alloc_make_T_C` of the glue code do not check whether the nursery has room (`C60_alloc_refuted`); the C program
  has to make room itself.
* **C61** the functions generated for foreign functions (ffi.v) do not work with the direct-style backend: they are `void` and leave the result in
  `tinfo->args[1]`, while compiled code and `call` use the value of the C call (`C61_direct_refuted`).  They do not check that the nursery has room
  (`C61_room_refuted`).  A foreign constant outside `IO` is exposed as a closure whose code calls the C function with one argument too many
  (`C61_nullary_refuted`).  The continuation and the world are in C variables during the call of the C function, so a C function that collects leaves
  them dangling (`C61_collect_refuted`).
* **C62** the printer drops parentheses or spaces C needs in four places the compiler does not reach: `-` before `-` (`--x`, `C62_negation_refuted`),
  a call through `*e` (`*f(a)` is `*(f(a))`, `C62_callee_refuted`), a last empty case in a `switch` (`C62_emptyCase_refuted`), and a function type
  without a name, printed as a pointer (`C62_functionType_refuted`).  The least integers are printed as constants of another type or of none
  (`C62_leastInteger_refuted`).  A cast of a function to a function type, which calls of C functions contain, is printed as a cast to a pointer,
  which is the same in C (`Meaning.fnCast`).
* **C63** names: a `-toplevel_name` or C function whose name ends in a number can be that of a function of the program (`C63_number_refuted`), or one
  of the compiler (`C63_ownName_refuted`); letters beyond ASCII are printed as they are (`C63_unicode_refuted`); the table of a function without an
  entry in the name table has a name that begins with a digit (`C63_infoDigit_refuted`).  The table of names is global: identifiers without a name get
  names of programs compiled earlier in the session, so that two of them can have the same name (`C63_session_refuted`).
* **C57** cplugin/PrimInt63.v registers the signed comparison `compares` with the C function for the unsigned one: a compiled program
  gets the right answer iff both operands are negative or both are not (`C57_compares_refuted`; the function
  `prim_int63_compares` itself is right, C05). Programs inherit the defects of C04, C06 (`C57_order_refuted`, `C57_carry_refuted`) and
  C50: `diveucl` started with fewer than three free words writes behind the nursery (`C57_pair_refuted`).
* **C23/C27** a boxed ordinal above 255 spills out of the tag byte (`C23_overflow_refuted`, `C27_overflow_refuted`); tags
  from 251 on mark a block as free of pointers, so the fields of the 252nd constructor are not scanned
  (`C23_noscan_refuted`). `Extract Inductives` reorders constructors for compiled code only: with `bool => [1 0]` glue
  code builds and prints `true` as compiled `false` (`C23_reorder_refuted`).
* **C24** two constructors whose ordinals agree modulo 256 are not told apart by the generated switch.
* **C25** `max_allocs` does not count the words of float and string literals: a program that evaluates one when the nursery
  is full writes past its end.
* **C51** the backend for CPS programs does not fetch `limit` again after a collection, so a collector that takes another
  nursery makes the program write outside of it (`C51_limit_refuted`); it does not count literals (`C51_literal_refuted`) and
  does not check the heap after an allocating primitive (`C51_primitive_refuted`). Observed, not a theorem: the code it
  emits includes gc.h and calls `garbage_collect(f_info, tinfo)`, while the plugin links gc_stack.o, whose `garbage_collect`
  takes `tinfo` only (gc_stack.c:396); gc.c is not in the repository.
* **C52** the C function of the main expression does not declare the variable `arg`, which a match in it uses.
* **C53** the encoder of string literals of this backend puts the first character in the most significant byte: the runtime reads
  the empty string as one of 7 bytes, and "a" as one of -90.
* **C66** a function stored in a constructor (every closure) or passed as an argument is assigned to `value` (an integer) without a cast, which ISO C 6.5.16.1 does not
  allow (`C66_closure_refuted`); the plugin passes `-Wno-everything` to the C compiler, newer versions of GCC report this as an error.
* **C67** `find_reverse_mapping` looks for the position in the list of an Extract Inductives mapping where it should take the entry at that position: results are right if and only if
  the mapping is its own inverse (`C67_mapping_iff`); with green, blue, red for red, green, blue, `red` is printed as `green` (`C67_mapping_refuted`), and
  with constructors of different arities the term is ill typed (`C67_typing_refuted`).  Constructors whose only arguments are `let`s are taken for constructors with arguments
  (`C67_let_refuted`, a FIXME in the code), and erased proofs are read as values of their types (`C67_proof_refuted`: an anomaly for `{n | p n /\ q n}`).
* **C68** compiled terms are found by file name: `certirocq_eval -file "f"` on a second term gives the value of the first (`C68_file_refuted`), a file called `goal1` is taken for the second goal
  (`C68_goal_refuted`).  The table does not know with which mapping a term was compiled: after `Extract Inductives` old code is read with the new order (`C68_mapping_refuted`).
  `increment_subscript` fails on names made of 9s (`C68_digits_refuted`).
* **C69** in a mutual block the innermost variable is the last type, but the generator takes it for the type at hand: `print_tree` calls itself on a forest (`C69_mutual_refuted`, whatever the
  memory is).  Arguments of types like `list (list nat)` are left out (`C69_nested_refuted`), and so are all arguments behind a `let` (`C69_let_refuted`).
* **C70** the clause `Extract Constants` of a command is ignored for a constant that is already registered, since the global registrations come first (`C70_override_refuted`).  The arity of a constant is
  counted on the products of its type as written: with `Definition binop := int -> int -> int. Axiom add : binop.` the C function is called without arguments (`C70_arity_refuted`).
* **C71** `copy_value` does not register its argument.  A result that shares a block with the arguments (names of the program to compile occur in its compiled form) is read through an old address once the
  collector has moved the block (`C71_shared_refuted`).  Blocks of numbers or bytes are copied as if they held values: a float is read as an address (`C71_raw_refuted`).
* **C72** `read_line` reads the standard output to its end before the error output.  A program that writes more to the error output than a pipe holds waits forever, and so does the plugin
  (`C72_deadlock_refuted`); the same for programs that read input (`C72_input_refuted`).  `run_program` ignores the status: a crash of the program is not shown (`C72_status_refuted`).
* **C73** `CertiRocq Run` with an absolute build directory runs `.` followed by the absolute path (`C73_absolute_refuted`); a constant called `f'` puts quotes into the command line
  (`C73_prime_refuted`); `-toplevel_name` is not known to the main program (`C73_toplevel_refuted`); with `-cps` the wrong runtime is linked (`C73_runtime_refuted`).  `Compile Wasm` ignores `-build_dir`
  (`C73_wasm_refuted`), `FFI` ignores `-build_dir` and `-file` (`C73_ffi_refuted`), and `Eval` with `-ext` compiles a file without the program (`C73_eval_iff`).
* **C74** `P.of_int n` is `n + 1` (the case for 0 gives 1), hence `N.of_int`, `ascii_of_char` and `coqstring_of_camlstring`, which turns `Hi` into `Ij` (`C74_of_int_refuted`, `C74_coqstring_refuted`).
* **C75** the guards of runtime/values.h and config.h are `VALUES_H` and `CONFIG_H`, those of the headers of programs compiled with `-file values` or `-file config`, which therefore hide the runtime's (`C75_values_refuted`); `M.f` and `M.F`,
  or `M.f'` and `M.f_`, have the same guard, without any option (`C75_guards_refuted`); a program compiled with `-file gc_stack` includes itself in place of the runtime (`C75_runtime_refuted`); `-file "2048"` gives a guard that
  is not a name (`C75_digit_refuted`).
* **C76** nothing is `static`: two programs with the same name for their main function (`body` by default), the same last number (`body_info_N`) or a common function with the same number cannot be linked
  (`C76_main_refuted`, `C76_table_refuted`, `C76_function_refuted`); two files of glue code never can (`C76_glue_refuted`: both define `call`, `get_args` and others).
* **C77** `msg_notice` and `msg_debug` write no newline in an executable, unlike `msg_info` and unlike under `CertiRocq Eval`, so that notices run into each other and into the line
  about the time that the driver adds (`C77_notice_refuted`); a message is cut at its first zero byte (`C77_nul_refuted`); after `user_error` the program has status 1, but `CertiRocq Run` does not fail (`C77_error_refuted`).
* **C78** `prim_string.h` declares `prim_string_compare` with one argument, and `make`, `sub` and `cat` without the thread, unlike prim_string.c, which does not include it (`C78_header_refuted`; the calls in
  programs go through casts and fit the definitions).  `compares` has the function of `compare` (`C78_distinct_refuted`, see C57).  `GMP.nat_case` is registered with an argument less than its type has
  (`C78_arity_refuted`), which is right only if erasure removes arguments that are types.
* **C79** `z_nat_case` makes the predecessor of a large number, which may collect memory, and then reads the function to call from the old place of the closure (`C79_collect_refuted`).  `closure_call` passes
  two arguments whatever `-args` says (`C79_args_refuted`).  A zero that GMP has allocated, such as the product of 0 and a number, is passed on in place of `tt` (`C79_zero_refuted`).
* **C80** Constructors are shown by their last names only: those of two types that have the same name are not told apart, so that programs returning different values have one text
  (`C80_constructors_refuted`); a constructor called `prim_5` looks like a primitive operation (`C80_primitive_refuted`), one called `con_7` like one without a name (`C80_anonymous_refuted`).  Tags of
  functions are not shown: a program that returns and one that goes wrong have one text (`C80_tags_refuted`).
* **C81** The wrapper of the checker has no cases for literals: programs with an integer, float or string literal anywhere raise `Match_failure` before the checker is called (`C81_literal_refuted`,
  `C81_checker_iff`), where the wrapper of the compiler works on all programs (`C81_compiler`).
* **C28** `M.a_b` and `M.a.b` (and constructor `a_b` of `t`, `b` of `t_a`) get the same C name.
* **C34** An erased proof is converted to a nullary constructor with the default tag, but an application of an erased
  proof (which evaluates to an erased proof, `eval_ProofApp_e` in expression.v) is converted to an ordinary call: the
  call of a constructor is stuck in LambdaANF and undefined in the generated code. No pass of the repository replaces
  applied proofs (`C34_erased_application_refuted`).
* **C35** the CPS conversion has the same defect. **C43** `convert_whole_exp` uses one variable both as the parameter of
  the main function and as the name of the top continuation: no CPS program has distinct binders.
* **C49** Codegen/toplevel.v passes `rootIdent` for the parameter `rootFld`, so one identifier names both the array of
  roots and the struct field.
* **C29** no defect found. The assumption `cenv_restricted` of the repository's own correctness theorem for this backend forbids
  a constructor with arguments and one without arguments of the same type to share an ordinal; `convert_env` numbers them
  separately, so the theorem does not cover programs with natural numbers or lists (`C29_repository_assumption_refuted`). The
  theorems here need only what `convert_env` guarantees.
* **C32** constants are linked as nested lets, whose right-hand sides are evaluated whether used or not. A program whose
  main term has a value but one of whose unused constants does not (stuck or diverging) has no value after linking.
  With the proviso that all constants evaluate, results agree in both directions (`C32_data`, `C32_terminates_iff`).
* **C55** `export_heap` copies heap blocks correctly (`C55_copy`), but a boxed static value is answered with the address behind an empty
  region (`C55_static_root_refuted`); the program cannot continue: `tinfo->fp` is left pointing to a frame of the returned C function, the
  blocks of all other roots are dropped (`C55_other_roots_refuted`) and `alloc`/`limit` are not refreshed (`C55_resume_refuted`); the
  assertion of `forward_remset` may fail on a small heap with many remembered stores (`C55_assert_refuted`).
* **C54** the conversion of `tLazy` to a function and of `tForce` to an application makes two stuck programs run: a forced function and
  an applied delayed computation (`C54_forced_function_refuted`, `C54_applied_lazy_refuted`). Neither comes from a typed program; for
  all others the conversion is exact (`C54_data`, `C54_terminates`).
* **C40** `fundefs_max_params` (lambda_lifting.v:212-219) drops its accumulator at the end of the bundle and always returns
  0, so the limit bounds the number of added parameters, not the total: a function that already has as many parameters
  as allowed gets more (`C40_limit_refuted`, `C40_limit_partial`).
