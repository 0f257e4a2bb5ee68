import Verif.CGen.HostLemmas

/-!
# Property C60: C programs that call compiled code

A C program runs the compiled program, applies the closures it gets with the generated function `call`, builds arguments with
the generated constructor functions and takes results apart with `get_args`, any number of times and in any order.  It keeps
its values in the roots of a stack frame, so the collector may move them.  Closures are applied at the level of LambdaANF
(closure-converted programs).  `_partial` as in C24: programs with float or string literals are not covered.
-/

namespace CGen

open ANF

variable {G : HeapI} {S : Sig} {C : Cfg} {W : World} {B : Defs} {e : Exp} {body : Var} {M : CFun × List CFun}

/-- A call from C, with any number of C parameters, in any state in which the collector may be called: if the body of the closure's function returns
a value, `call` returns a representation of it (or the collector gives up), and the roots of the C program still represent what they did. -/
theorem C60_call_partial (hL : Linked G S C W B e body M) {t : Tag} {f : Var} {ft : Tag} {xs : List Var} {eb : Exp}
    {env arg v : Val} {ρ : Env} (hf : findDef f B = some (ft, xs, eb)) (hρ : setLists xs [env, arg] (defFuns B B emp emp) = some ρ)
    (hr : Returns S ρ eb v) (d : Nat) (h : Th) (hd : ∀ k, OnChain h k → k < d) (hle : h.alloc ≤ h.limit) (hok : h.Ok G S.cenv B)
    {c a : CVal} (hc : h.Rep G S.cenv B (.constr t [.fn emp B f, env]) c) (ha : h.Rep G S.cenv B arg a) :
    ∃ n, enter W (callC W M.2 n) (callFun C.nParam) d [c, a] h = .abort ∨
      ∃ c' h', enter W (callC W M.2 n) (callFun C.nParam) d [c, a] h = .ret c' h' ∧ h'.Rep G S.cenv B v c' ∧
        Keeps G S.cenv B d h h' ∧ h'.alloc ≤ h'.limit ∧ h'.Ok G S.cenv B := by
  obtain ⟨n, hn⟩ := hr
  have := callFun_sim hL n d h hd hle hok hc ha
  simp only [applyClo, hf, hρ, hn] at this
  exact ⟨n + 1, this⟩

/-- A call from C of a function that does not terminate does not return. -/
theorem C60_call_diverges_partial (hL : Linked G S C W B e body M) {t : Tag} {f : Var} {ft : Tag} {xs : List Var} {eb : Exp}
    {env arg : Val} {ρ : Env} (hf : findDef f B = some (ft, xs, eb)) (hρ : setLists xs [env, arg] (defFuns B B emp emp) = some ρ)
    (hr : Diverges S ρ eb) (n d : Nat) (h : Th) (hd : ∀ k, OnChain h k → k < d) (hle : h.alloc ≤ h.limit) (hok : h.Ok G S.cenv B)
    {c a : CVal} (hc : h.Rep G S.cenv B (.constr t [.fn emp B f, env]) c) (ha : h.Rep G S.cenv B arg a) :
    enter W (callC W M.2 (n + 1)) (callFun C.nParam) d [c, a] h = .abort ∨
      enter W (callC W M.2 (n + 1)) (callFun C.nParam) d [c, a] h = .oot := by
  have := callFun_sim hL n d h hd hle hok hc ha
  simp only [applyClo, hf, hρ, hr n] at this
  exact this

/-- A C program, of any length: if its operations have the values `vs`, it obtains representations of all of them, the first
ones included, or the process is aborted. -/
theorem C60_session_partial (hL : Linked G S C W B e body M) {os : List HostOp} {vs vs' : List Val}
    (hr : ∃ n, srcRun S B e n os vs = .vals vs') {h : Th} (hh : Holds G S.cenv B vs h)
    (hs : vs.length + os.length ≤ (h.frames 0).size) :
    ∃ n, hostRun W C M n os vs.length h = .abort ∨ ∃ h', hostRun W C M n os vs.length h = .ok h' ∧ Holds G S.cenv B vs' h' := by
  obtain ⟨n, hn⟩ := hr
  have := hostRun_sim hL n os hh hs
  rw [hn] at this
  exact ⟨n, this⟩

/-- If one of its operations does not terminate, neither does the C program. -/
theorem C60_session_diverges_partial (hL : Linked G S C W B e body M) {os : List HostOp} {vs : List Val}
    (hr : ∀ n, srcRun S B e n os vs = .oot) {h : Th} (hh : Holds G S.cenv B vs h)
    (hs : vs.length + os.length ≤ (h.frames 0).size) (n : Nat) :
    hostRun W C M n os vs.length h = .abort ∨ hostRun W C M n os vs.length h = .oot := by
  have := hostRun_sim hL n os hh hs
  rw [hr n] at this
  exact this

/-- If its operations make sense, the C program has no undefined behaviour. -/
theorem C60_session_defined_partial (hL : Linked G S C W B e body M) {os : List HostOp} {vs : List Val}
    (hr : ∀ n, srcRun S B e n os vs ≠ .stuck) {h : Th} (hh : Holds G S.cenv B vs h)
    (hs : vs.length + os.length ≤ (h.frames 0).size) (n : Nat) : hostRun W C M n os vs.length h ≠ .ub := by
  have := hostRun_sim hL n os hh hs
  cases hc : srcRun S B e n os vs with
  | stuck => exact absurd hc (hr n)
  | oot => rw [hc] at this; rcases this with h1 | h1 <;> rw [h1] <;> exact fun h => by cases h
  | vals vs' => rw [hc] at this; rcases this with h1 | ⟨h', h1, _⟩ <;> rw [h1] <;> exact fun h => by cases h

/-- `make_tinfo` and a frame for `size` values of the C program. -/
def Rt.startHost (R : Rt) (a size : Nat) : Th :=
  { (R.start a).setFrame 0 ⟨size, 0, none, fun _ => none⟩ with fp := some 0 }

theorem Rt.startHost_holds {R : Rt} {cenv : Ctor.PMap Ctor.Info} {a : Nat} (ha : 0 < a)
    (hs : ∀ x, R.Static x → x < a ∨ a + GC.nurserySize ≤ x) (size : Nat) : Holds R.heapI cenv B [] (R.startHost a size) := by
  obtain ⟨h1, h2, _⟩ := C56_start (R := R) (B := B) (cenv := cenv) ha hs
  have hch : ∀ k, OnChain (R.startHost a size) k → k = 0 := by
    intro k hk
    induction hk with
    | top h => exact (Option.some.inj h).symm
    | step _ h ih => subst ih; simp [Rt.startHost, Th.setFrame] at h
  refine ⟨rfl, by simp [Rt.startHost, Th.setFrame], Nat.zero_le _, fun i v hv => by simp at hv, h2, h1.heap, ?_, ?_, ?_⟩
  · intro k hk; rw [hch k hk]; simp [Rt.startHost, Th.setFrame]
  · intro k hk j hj; rw [hch k hk] at hj; simp [Rt.startHost, Th.setFrame] at hj
  · intro k hk i hi; rw [hch k hk] at hi; simp [Rt.startHost, Th.setFrame] at hi

/-- The same with the collector of the runtime: a C program that calls `make_tinfo`, links a frame large enough for its
values and then runs. -/
theorem C60_runtime_partial {R : Rt} {a : Nat} {prim : Tag → List CVal → (Nat → Option CVal) → Option CVal}
    {primT : Tag → List CVal → Th → Out} (hL : Loaded R a S C prim primT B e body M) {os : List HostOp} {vs : List Val}
    (hr : ∃ n, srcRun S B e n os [] = .vals vs) {size : Nat} (hs : os.length ≤ size) :
    ∃ n, hostRun (R.world S.cenv B prim primT) C M n os 0 (R.startHost a size) = .abort ∨
      ∃ h', hostRun (R.world S.cenv B prim primT) C M n os 0 (R.startHost a size) = .ok h' ∧ Holds R.heapI S.cenv B vs h' :=
  C60_session_partial (vs := []) hL.linked hr (Rt.startHost_holds hL.nursery.1 hL.nursery.2 size)
    (by simpa [Rt.startHost, Th.setFrame] using hs)

/-- In no case is its behaviour undefined, if the operations make sense. -/
theorem C60_runtime_defined_partial {R : Rt} {a : Nat} {prim : Tag → List CVal → (Nat → Option CVal) → Option CVal}
    {primT : Tag → List CVal → Th → Out} (hL : Loaded R a S C prim primT B e body M) {os : List HostOp}
    (hr : ∀ n, srcRun S B e n os [] ≠ .stuck) {size : Nat} (hs : os.length ≤ size) (n : Nat) :
    hostRun (R.world S.cenv B prim primT) C M n os 0 (R.startHost a size) ≠ .ub :=
  C60_session_defined_partial (vs := []) hL.linked hr (Rt.startHost_holds hL.nursery.1 hL.nursery.2 size)
    (by simpa [Rt.startHost, Th.setFrame] using hs) n

/-- `alloc_make_T_C` itself does not check for room: called with fewer free words than the constructor needs it writes
behind the nursery. -/
theorem C60_alloc_refuted (ord : Nat) (cs : List CVal) (h : Th) (hle : h.alloc ≤ h.limit) (hfull : h.limit < h.alloc + (cs.length + 1)) :
    allocMake ord cs h = .ub := by
  have : ∀ (cs : List CVal) (a : Nat) (h : Th), a ≤ h.limit → h.limit < a + cs.length → storeAll a cs h = none := by
    intro cs
    induction cs with
    | nil => intro a h h1 h2; simp at h2; omega
    | cons c cs ih =>
      intro a h h1 h2
      simp only [List.length_cons] at h2
      simp only [storeAll]
      split
      · rename_i hin
        exact ih (a + 1) _ (by show a + 1 ≤ h.limit; omega) (by show h.limit < _; omega)
      · rfl
  unfold allocMake
  rw [this _ _ _ hle (by simpa using hfull)]

/-! ## A C program and the program it uses -/

/-- Numbers, and tag 102 for closures. -/
def cenvClo : Ctor.PMap Ctor.Info := fun t => if t = 102 then some ⟨none, none, 102, 2, 0⟩ else cenvNat t

theorem cenvClo_ok : CtorsOk cenvClo := by
  have key : ∀ t i, cenvClo t = some i → t = 100 ∧ i = ⟨none, none, 100, 0, 0⟩ ∨ t = 101 ∧ i = ⟨none, none, 100, 1, 0⟩ ∨
      t = 102 ∧ i = ⟨none, none, 102, 2, 0⟩ := by
    intro t i h
    unfold cenvClo cenvNat at h
    split at h
    · rename_i e; cases h; exact .inr (.inr ⟨e, rfl⟩)
    split at h
    · rename_i e; cases h; exact .inl ⟨e, rfl⟩
    split at h
    · rename_i e; cases h; exact .inr (.inl ⟨e, rfl⟩)
    · cases h
  constructor
  · intro t i h ha
    rcases key t i h with ⟨_, rfl⟩ | ⟨_, rfl⟩ | ⟨_, rfl⟩ <;> simp
  · intro t t' i i' h h' hi ha _
    rcases key t i h with ⟨rfl, rfl⟩ | ⟨rfl, rfl⟩ | ⟨rfl, rfl⟩ <;> rcases key t' i' h' with ⟨rfl, rfl⟩ | ⟨rfl, rfl⟩ | ⟨rfl, rfl⟩ <;>
      simp at ha hi ⊢

/-- `f env x = S x` when the environment is `O`, otherwise `f (pred env) x` followed by `S`: addition, closed over the first
argument. -/
def defsAdd : Defs := .cons 300 3 [301, 302] (.case 301
  (.cons 100 (.halt 302)
  (.cons 101 (.proj 304 101 0 301 (.letapp 305 300 3 [304, 302] (.constr 306 101 [305] (.halt 306)))) .nil))) .nil

/-- The closure of `f` over 2. -/
def mainAdd : Exp := .constr 310 100 [] (.constr 311 101 [310] (.constr 312 101 [311] (.constr 313 102 [300, 312] (.halt 313))))

/-- Runs the program, makes 1, applies the closure to it and again to the result, and looks into the last result. -/
def hostAdd : List HostOp := [.main, .enum 100, .make 101 [1], .call 0 2, .call 0 3, .field 4 0]

/-- The hypotheses are met for every number of C parameters, and the last value is 4. -/
example (np : Nat) : ∃ M, Loaded arena 1024 ⟨cenvClo, fun _ _ => none⟩ ⟨np, 5, fun _ => none, cenvClo⟩ (fun _ _ _ => none)
      (fun _ _ _ => .ub) defsAdd mainAdd 1 M ∧
    srcRun ⟨cenvClo, fun _ _ => none⟩ defsAdd mainAdd 5 hostAdd [] =
      .vals [.constr 102 [.fn emp defsAdd 300, natVal 2], natVal 0, natVal 1, natVal 3, natVal 5, natVal 4] := by
  obtain ⟨M, hM⟩ := C24_compiles (B := defsAdd) (e := mainAdd) (ar := fun _ => 2) ⟨np, 5, fun _ => none, cenvClo⟩ 1
    (by simp [OkE, OkB, OkBs, defsAdd, mainAdd, cenvClo, cenvNat]) (by simp [FlatB, FlatE, FlatBs, defsAdd])
    (by simp [FlatE, mainAdd])
  exact ⟨M, ⟨arena_fits _ (by decide), arena_nursery, rfl, cenvClo_ok, prims_none _ _ _ _, by show (5 : Nat) ∉ defsAdd.names; decide, hM,
    by simp [SeenE, SeenB, SeenBs, defsAdd, mainAdd, cenvClo, cenvNat], by decide, by decide⟩, by rfl⟩

/-- A state with one free word in which the constructor function of `S` is called. -/
example : (th0 1).alloc ≤ (th0 1).limit ∧ (th0 1).limit < (th0 1).alloc + ([CVal.int 1].length + 1) ∧
    allocMake 0 [.int 1] (th0 1) = .ub := ⟨by simp [th0], by simp [th0], C60_alloc_refuted _ _ _ (by simp [th0]) (by simp [th0])⟩

end CGen
