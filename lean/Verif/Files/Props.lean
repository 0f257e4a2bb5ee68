import Verif.Files.Lemmas

/-!
# C73: commands write the files their options name, and build programs from these

For all options, directories, names and lists of objects.
-/

namespace Files

/-- **C73** the last of several options of one kind counts, and the default if there is none. -/
theorem C73_options (d : Option Str) (l : List Arg) (f : Str) :
    (makeOptions d l f).filename = lastOf (fun a => match a with | .filename s => some s | _ => none) f l ∧
    (makeOptions d l f).ext = lastOf (fun a => match a with | .ext s => some s | _ => none) [] l ∧
    (makeOptions d l f).toplevel = lastOf (fun a => match a with | .toplevel s => some s | _ => none) "body".toList l ∧
    (makeOptions d l f).args = lastOf (fun a => match a with | .args n => some n | _ => none) 5 l ∧
    (makeOptions d l f).olevel = lastOf (fun a => match a with | .opt n => some n | _ => none) 1 l ∧
    (makeOptions d l f).cps = lastOf (fun a => match a with | .cps => some true | _ => none) false l ∧
    (makeOptions d l f).buildDir =
      lastOf (fun a => match a with | .buildDir s => some (if s = [] then ['.'] else s) | _ => none) ((d.map fun s => if s = [] then ['.'] else s).getD ['.']) l := by
  refine ⟨?_, ?_, ?_, ?_, ?_, ?_, ?_⟩
  · exact foldl_last (·.filename) _ (fun o a => by cases a <;> rfl) l _
  · exact foldl_last (·.ext) _ (fun o a => by cases a <;> rfl) l _
  · exact foldl_last (·.toplevel) _ (fun o a => by cases a <;> rfl) l _
  · exact foldl_last (·.args) _ (fun o a => by cases a <;> rfl) l _
  · exact foldl_last (·.olevel) _ (fun o a => by cases a <;> rfl) l _
  · exact foldl_last (·.cps) _ (fun o a => by cases a <;> rfl) l _
  · exact foldl_last (·.buildDir) _ (fun o a => by cases a <;> rfl) l _

theorem buildDir_ne (d : Option Str) (l : List Arg) (f : Str) : (makeOptions d l f).buildDir ≠ [] := by
  apply foldl_buildDir_ne
  cases d with
  | none => simp [defaultOptions]
  | some s => simp only [defaultOptions, Option.map_some, Option.getD_some, checkBuildDir]; split <;> simp_all

/-- **C73** `Compile`, `Show IR` and `Generate Glue` write their files in the directory and with the name of the options. -/
theorem C73_placed (cwd : List Str) (d : Option Str) (l : List Arg) (f : Str) :
    let o := makeOptions d l f
    resolve cwd (cFile o) = placed cwd o.buildDir (o.filename ++ o.ext ++ ".c".toList) ∧
    resolve cwd (hFile o) = placed cwd o.buildDir (o.filename ++ o.ext ++ ".h".toList) ∧
    resolve cwd (irFile o) = placed cwd o.buildDir (o.filename ++ o.ext ++ ".ir".toList) ∧
    resolve cwd (glueFile o) = placed cwd o.buildDir (o.filename ++ ".c".toList) := by
  intro o
  have h := buildDir_ne d l f
  refine ⟨resolve_concat cwd h _, resolve_concat cwd h _, ?_, resolve_concat cwd h _⟩
  have e : irFile o = concat o.buildDir (o.filename ++ o.ext ++ ".ir".toList) := by
    simp only [irFile, makeFname, concat]
    split <;> simp
  rw [e]
  exact resolve_concat cwd h _

/-- **C73 refuted** for Wasm: the file is in the directory of the options only if that is the current directory. -/
theorem C73_wasm_refuted (cwd : List Str) (d : Option Str) (l : List Arg) (f : Str) :
    let o := makeOptions d l f
    o.filename.head? ≠ some '/' → o.filename ≠ [] →
      (resolve cwd (wasmFile o) = placed cwd o.buildDir (o.filename ++ o.ext ++ ".wasm".toList) ↔ resolve cwd o.buildDir = cwd) := by
  intro o h hn
  have hh : (wasmFile o).head? ≠ some '/' := by
    cases e : o.filename with
    | nil => exact absurd e hn
    | cons c cs => rw [e] at h; simpa [wasmFile, e] using h
  rw [resolve, if_neg hh, placed, show o.filename ++ o.ext ++ ".wasm".toList = wasmFile o from rfl, List.append_cancel_right_eq]
  exact eq_comm

/-- **C73 refuted** for `FFI`: the files do not depend on the directory and the file name of the options. -/
theorem C73_ffi_refuted (name : Str) (d : Option Str) (l : List Arg) (f s : Str) :
    ffiFile name (makeOptions d (l ++ [.buildDir s]) f) = ffiFile name (makeOptions d l f) ∧
    ffiFile name (makeOptions d (l ++ [.filename s]) f) = ffiFile name (makeOptions d l f) := by
  simp [ffiFile, makeOptions, setArg]

/-- **C73** for `Run` (partial: directory relative to the current one, names without characters special to the shell).  The file compiled is the one
written by the compiler, the object made is linked, with the runtime and the objects given, and the program run is the one linked. -/
theorem C73_run_partial (cwd : List Str) (d : Option Str) (l : List Arg) (f cc rt gc : Str) (objs : List Str) :
    let o := makeOptions d l f
    o.buildDir.head? ≠ some '/' → Word cc → Word rt → Word gc → Word o.buildDir → (∀ c ∈ o.filename ++ o.ext, plain c = true) → (∀ w ∈ objs, Word w) →
    ∃ ws lw exe, sh (ccCmd cc rt o) = some (cc :: ws) ∧ sh (linkCmd cc rt gc objs o) = some (cc :: lw) ∧
      ccInputs ws = [cFile o] ∧ ccOutput ws = some (runName o ++ ".o".toList) ∧
      ccInputs lw = gc :: (runName o ++ ".o".toList) :: objs ∧ ccOutput lw = some exe ∧ resolve cwd (execPath o) = resolve cwd exe := by
  intro o hrel hcc hrt hgc hbd hnm hobjs
  have hn := buildDir_ne d l f
  have hname : ∀ t : Str, (∀ c ∈ t, plain c = true) → Word (runName o ++ t) := by
    intro t ht
    refine ⟨?_, ?_, ?_⟩
    · intro c hc
      simp only [runName, makeFname, concat] at hc
      have hs : plain '/' = true := by decide
      split at hc <;> simp only [List.mem_append, List.mem_cons] at hc
      · rcases hc with (hc | hc) | hc
        · exact hbd.plain c hc
        · exact hnm c (by simpa using hc)
        · exact ht c hc
      · rcases hc with (hc | hc | hc) | hc
        · exact hbd.plain c hc
        · rw [hc]; exact hs
        · exact hnm c (by simpa using hc)
        · exact ht c hc
    · intro e
      have h2 : (runName o).head? = o.buildDir.head? := head_concat hn
      rw [(List.append_eq_nil_iff.1 e).1] at h2
      exact hn (List.head?_eq_none_iff.1 h2.symm)
    · have h2 : (runName o).head? = o.buildDir.head? := head_concat hn
      have h3 := hbd.file
      cases e : runName o with
      | nil =>
        rw [e] at h2
        exact absurd (List.head?_eq_none_iff.1 h2.symm) hn
      | cons c cs => rw [e] at h2; simp only [List.cons_append]; rw [← h2] at h3; simpa using h3
  have hO : Word (runName o ++ ".o".toList) := hname _ (by decide)
  have hC : Word (runName o ++ ".c".toList) := hname _ (by decide)
  have hN : Word (runName o) := by simpa using hname [] (by simp)
  have lit : ∀ s ∈ ["-fPIC".toList, "-Wno-everything".toList, "-O2".toList, "-fomit-frame-pointer".toList, "-g".toList, "-I".toList, "-L".toList, "-c".toList, "-o".toList],
      (∀ c ∈ s, plain c = true) ∧ s ≠ [] := by decide
  refine ⟨_, _, runName o, sh_unwords ?_, sh_unwords (ws := [cc, "-fPIC".toList, "-Wno-everything".toList, "-g".toList, "-L".toList, o.buildDir, "-L".toList, rt, "-o".toList, runName o, gc,
    runName o ++ ".o".toList] ++ objs) ?_, ?_, ?_, ?_, ?_, ?_⟩
  · intro w hw
    simp only [List.mem_cons, List.not_mem_nil, or_false] at hw
    rcases hw with h | h | h | h | h | h | h | h | h | h | h | h | h | h
    · rw [h]; exact ⟨hcc.plain, hcc.ne⟩
    · rw [h]; exact lit _ (by simp)
    · rw [h]; exact lit _ (by simp)
    · rw [h]; exact lit _ (by simp)
    · rw [h]; exact lit _ (by simp)
    · rw [h]; exact lit _ (by simp)
    · rw [h]; exact lit _ (by simp)
    · rw [h]; exact ⟨hbd.plain, hbd.ne⟩
    · rw [h]; exact lit _ (by simp)
    · rw [h]; exact ⟨hrt.plain, hrt.ne⟩
    · rw [h]; exact lit _ (by simp)
    · rw [h]; exact lit _ (by simp)
    · rw [h]; exact ⟨hO.plain, hO.ne⟩
    · rw [h]; exact ⟨hC.plain, hC.ne⟩
  · intro w hw
    simp only [List.mem_append, List.mem_cons, List.not_mem_nil, or_false] at hw
    rcases hw with (h | h | h | h | h | h | h | h | h | h | h | h) | h
    · rw [h]; exact ⟨hcc.plain, hcc.ne⟩
    · rw [h]; exact lit _ (by simp)
    · rw [h]; exact lit _ (by simp)
    · rw [h]; exact lit _ (by simp)
    · rw [h]; exact lit _ (by simp)
    · rw [h]; exact ⟨hbd.plain, hbd.ne⟩
    · rw [h]; exact lit _ (by simp)
    · rw [h]; exact ⟨hrt.plain, hrt.ne⟩
    · rw [h]; exact lit _ (by simp)
    · rw [h]; exact ⟨hN.plain, hN.ne⟩
    · rw [h]; exact ⟨hgc.plain, hgc.ne⟩
    · rw [h]; exact ⟨hO.plain, hO.ne⟩
    · exact ⟨(hobjs w h).plain, (hobjs w h).ne⟩
  · have e : cFile o = runName o ++ ".c".toList := by
      simp only [cFile, runName, makeFname, concat]
      split <;> simp
    rw [e, ← ccInputs_words (ws := [runName o ++ ".c".toList]) (by simpa using hC.file)]
    simp [ccInputs]
  · simp [ccOutput]
  · have := ccInputs_words (ws := gc :: (runName o ++ ".o".toList) :: objs) (by
      intro w hw
      simp only [List.mem_cons] at hw
      rcases hw with h | h | h
      · rw [h]; exact hgc.file
      · rw [h]; exact hO.file
      · exact (hobjs w h).file)
    rw [← this]
    simp [ccInputs]
  · simp [ccOutput]
  · have h1 : (runName o).head? ≠ some '/' := by rw [show (runName o).head? = o.buildDir.head? from head_concat hn]; exact hrel
    rw [resolve, resolve, if_neg h1, if_neg (by simp [execPath]), execPath, comps_dot]

/-- **C73 refuted** for `Run` with an absolute directory: the program run is another file than the one linked. -/
theorem C73_absolute_refuted (cwd : List Str) (d : Option Str) (l : List Arg) (f : Str) :
    let o := makeOptions d l f
    o.buildDir.head? = some '/' → cwd ≠ [] → resolve cwd (execPath o) ≠ resolve cwd (runName o) := by
  intro o h hc e
  have h1 : (runName o).head? = some '/' := by rw [show (runName o).head? = o.buildDir.head? from head_concat (buildDir_ne d l f)]; exact h
  rw [resolve, resolve, if_pos h1, if_neg (by simp [execPath]), execPath, comps_dot] at e
  have := congrArg List.length e
  simp at this
  exact hc this

/-- **C73 refuted** for `Run` of a constant called `f'`: the shell takes the primes in the command for quotes, and the C compiler gets no file to
compile. -/
theorem C73_prime_refuted :
    ∃ ws, sh (ccCmd "gcc".toList "rt".toList (makeOptions none [] "M.f'".toList)) = some ws ∧ ccInputs ws.tail = [] := by
  refine ⟨["gcc".toList, "-fPIC".toList, "-Wno-everything".toList, "-O2".toList, "-fomit-frame-pointer".toList, "-g".toList, "-I".toList, ".".toList, "-I".toList, "rt".toList,
    "-c".toList, "-o".toList, "./M.f.o ./M.f.c".toList], ?_, ?_⟩ <;> decide +kernel

/-- **C73** for `Eval`: the file completed and compiled is the one with the program exactly if there is no `-ext`. -/
theorem C73_eval_iff (cwd : List Str) (d : Option Str) (l : List Arg) (f : Str) :
    let o := makeOptions d l f
    '/' ∉ o.filename ++ o.ext → (resolve cwd (evalDriver o) = resolve cwd (cFile o) ↔ o.ext = []) := by
  intro o h
  have hn := buildDir_ne d l f
  simp only [List.mem_append, not_or] at h
  rw [show resolve cwd (evalDriver o) = placed cwd o.buildDir (o.filename ++ ['.', 'c']) from resolve_concat cwd hn _,
    show resolve cwd (cFile o) = placed cwd o.buildDir (o.filename ++ o.ext ++ ['.', 'c']) from resolve_concat cwd hn _, placed, placed,
    List.append_cancel_left_eq]
  have two : ∀ t : Str, t ++ ['.', 'c'] ≠ [] ∧ t ++ ['.', 'c'] ≠ ['.'] := by
    intro t
    constructor <;> intro e <;> have := congrArg List.length e <;> simp at this
  rw [comps_noslash (by simp [h.1]) (two _).1 (two _).2, comps_noslash (by simp [h.1, h.2]) (two _).1 (two _).2]
  constructor
  · intro e
    simp only [List.cons.injEq, and_true] at e
    have := congrArg List.length e
    simp at this
    exact this
  · intro e
    rw [e, List.append_nil]

/-- **C73 refuted** for `Run` with `-toplevel_name`: the function called by the main program is the compiled one only if it is called `body`. -/
theorem C73_toplevel_refuted (d : Option Str) (l : List Arg) (f s : Str) :
    definedMain (makeOptions d (l ++ [.toplevel s]) f) = calledMain ↔ s = "body".toList := by
  simp [definedMain, calledMain, makeOptions, setArg]

/-- **C73 refuted** for `Run -cps`: the runtime linked is not the one whose header the program includes. -/
theorem C73_runtime_refuted (d : Option Str) (l : List Arg) (f : Str) :
    linkedRuntime (makeOptions d l f) = headerOf (makeOptions d l f) ↔ (makeOptions d l f).cps = false := by
  cases h : (makeOptions d l f).cps <;> simp [linkedRuntime, headerOf, h]

/-- The hypotheses of `C73_run_partial` are met. -/
example : let o := makeOptions none [.buildDir "out/x".toList, .ext "_v2".toList] "M.f".toList
    o.buildDir.head? ≠ some '/' ∧ Word o.buildDir ∧ (∀ c ∈ o.filename ++ o.ext, plain c = true) ∧ Word "gcc".toList ∧
      resolve ["home".toList] (cFile o) = ["home".toList, "out".toList, "x".toList, "M.f_v2.c".toList] := by
  refine ⟨by decide, ⟨by decide, by decide, by decide⟩, by decide, ⟨by decide, by decide, by decide⟩, by decide +kernel⟩

end Files
