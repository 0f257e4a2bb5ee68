import Verif.Wasm.GenTop
import Verif.ANF.SemLemmas

/-!
# Properties of the Wasm backend (C29, C30, C31)
-/

namespace Wasm
open Instr

/-! ## C29: layout of constructors, matches, projections, and the result of the program -/

/-- Words tell the constructors of a type apart: whatever two memories look like, if the same word represents two constructor
values of one type in one memory, the constructors and the numbers of arguments are the same. -/
theorem C29_words_apart {cenv : CEnv} (ho : OrdOk cenv) {B : ANF.Defs} {m : Mem} {top w : Nat} {t t' : ANF.Tag} {vs vs' : List ANF.Val}
    {i i' : Ctor.Info} (hi : cenv t = some i) (hi' : cenv t' = some i') (hty : i.indTag = i'.indTag)
    (h : Rep cenv B m top (.constr t vs) w) (h' : Rep cenv B m top (.constr t' vs') w) : t = t' ∧ vs.length = vs'.length := by
  obtain ⟨a1, a2, a3, a4⟩ := h.word hi
  obtain ⟨b1, b2, b3, b4⟩ := h'.word hi'
  have key : i.ordinal = i'.ordinal ∧ (i.arity = 0 ↔ i'.arity = 0) := by
    rw [a2, b2, List.length_eq_zero_iff, List.length_eq_zero_iff]
    by_cases hv : vs = [] <;> by_cases hv' : vs' = []
    · have := a3 hv; have := b3 hv'; exact ⟨by omega, by simp [hv, hv']⟩
    · have := a3 hv; have := b4 hv'; omega
    · have := a4 hv; have := b3 hv'; omega
    · exact ⟨(a4 hv).2.2.symm.trans (b4 hv').2.2, by simp [hv, hv']⟩
  have ht := ho t t' i i' hi hi' hty key.2 key.1
  subst ht
  rw [hi] at hi'; cases hi'
  exact ⟨rfl, a2.symm.trans b2⟩

/-- Constructors without arguments are odd words, blocks are multiples of four inside the allocated memory. -/
theorem C29_parity {cenv : CEnv} {B : ANF.Defs} {m : Mem} {top w : Nat} {t : ANF.Tag} {vs : List ANF.Val}
    (h : Rep cenv B m top (.constr t vs) w) :
    (vs = [] ∧ w % 2 = 1) ∨ (vs ≠ [] ∧ w % 4 = 0 ∧ w + 4 * (vs.length + 1) ≤ top) := by
  cases h with
  | unboxed h1 h2 h3 => exact .inl ⟨rfl, by omega⟩
  | boxed h1 h2 h3 h4 h5 h6 h7 => exact .inr ⟨h3, h5, h6⟩

/-- The first branch of a match for a constructor. -/
inductive Branch (t : ANF.Tag) : ANF.Brs → ANF.Exp → Prop
  | here {e : ANF.Exp} {bs : ANF.Brs} : Branch t (.cons t e bs) e
  | there {t' : ANF.Tag} {e e' : ANF.Exp} {bs : ANF.Brs} : t' ≠ t → Branch t bs e → Branch t (.cons t' e' bs) e

theorem dispatch_chain {cenv : CEnv} (ho : OrdOk cenv) {lenv fenv : VMap} {penv : ANF.Tag → Option Primop} {B : ANF.Defs} {E : Env} {n : Nat}
    {Q : St → Prop} {F : Prop} {mem : Nat} {s : St} {p i w : Nat} {t : ANF.Tag} {vs : List ANF.Val} {info : Ctor.Info} {e : ANF.Exp}
    {is : List Instr} (hst : s.stack = []) (hp : p ≤ s.pages * pageSize) (hw : s.locals[i]? = some (.i32 w))
    (hr : Rep cenv B s.mem p (.constr t vs) w) (hi : cenv t = some info) (hte : transE cenv lenv fenv penv e mem = some is)
    (h : Ends E n is s Q F) : ∀ (bs : ANF.Brs) {bx ub : List (Nat × List Instr)},
    transB cenv lenv fenv penv bs mem = some (bx, ub) → checkB cenv bs = true → Branch t bs e →
    (∀ t' ∈ bs.tags, ∃ i', cenv t' = some i' ∧ info.indTag = i'.indTag) →
    Ends E n (if vs = [] then ifChain false i ub else ifChain true i bx) s Q F
  | .nil, bx, ub, ht, hk, hb, hcon => by cases hb
  | .cons t' e' bs, bx, ub, ht, hk, hb, hcon => by
    rw [transB] at ht
    obtain ⟨is', ht1, ht⟩ := Option.bind_eq_some_iff.mp ht
    obtain ⟨⟨bx', ub'⟩, ht2, ht⟩ := Option.bind_eq_some_iff.mp ht
    obtain ⟨info', hi', ht⟩ := Option.bind_eq_some_iff.mp ht
    rw [checkB, Bool.and_eq_true, Bool.and_eq_true] at hk
    have ho' : info'.ordinal < 2 ^ 31 := by
      have := hk.1.1
      rw [ordOk, hi'] at this
      simpa using this
    obtain ⟨i2, hi2, hind⟩ := hcon t' (by rw [ANF.Brs.tags]; exact List.mem_cons_self ..)
    rw [hi'] at hi2; cases hi2
    obtain ⟨g1, g2, g3, g4⟩ := hr.word hi
    have harity : info.arity = 0 ↔ vs = [] := by rw [g2, List.length_eq_zero_iff]
    have hrest : t' ≠ t → Ends E n (if vs = [] then ifChain false i ub' else ifChain true i bx') s Q F := by
      intro hne
      refine dispatch_chain ho hst hp hw hr hi hte h bs ht2 hk.2 ?_
        (fun t'' h => hcon t'' (by rw [ANF.Brs.tags]; exact List.mem_cons_of_mem _ h))
      cases hb with
      | here => exact absurd rfl hne
      | there _ hb => exact hb
    have hhit : t' = t → is' = is := by
      intro he
      cases hb with
      | here => rw [hte] at ht1; exact (Option.some.inj ht1).symm
      | there hne _ => exact absurd he hne
    have hsame : info.ordinal = info'.ordinal → (info.arity = 0 ↔ info'.arity = 0) → t' = t := fun h1 h2 =>
      (ho t t' info info' hi hi' hind h2 h1).symm
    have hinv : t' = t → info = info' := by
      rintro rfl
      rw [hi] at hi'; exact Option.some.inj hi'
    by_cases ha : info'.arity = 0
    · rw [if_pos ha] at ht
      cases ht
      by_cases h0 : vs = []
      · rw [if_pos h0] at hrest ⊢
        refine chain_step hst hw ho' g1 (by simpa using g3 h0) ?_
        by_cases hoo : info.ordinal = info'.ordinal
        · rw [if_pos hoo, hhit (hsame hoo (by rw [harity]; exact ⟨fun _ => ha, fun _ => h0⟩))]
          exact h
        · rw [if_neg hoo]
          exact hrest fun he => hoo (by rw [hinv he])
      · rw [if_neg h0] at hrest ⊢
        exact hrest fun he => h0 (harity.mp (by rw [hinv he]; exact ha))
    · rw [if_neg ha] at ht
      cases ht
      by_cases h0 : vs = []
      · rw [if_pos h0] at hrest ⊢
        exact hrest fun he => ha (by rw [← hinv he]; exact harity.mpr h0)
      · rw [if_neg h0] at hrest ⊢
        obtain ⟨q1, q2, q3⟩ := g4 h0
        refine chain_step hst hw ho' g1 (by simp only [if_true]; exact ⟨by omega, q3⟩) ?_
        by_cases hoo : info.ordinal = info'.ordinal
        · rw [if_pos hoo, hhit (hsame hoo ⟨fun h => absurd (harity.mp h) h0, fun h => absurd h ha⟩)]
          exact h
        · rw [if_neg hoo]
          exact hrest fun he => hoo (by rw [hinv he])

/-- A match on a local holding a constructor value behaves as the code of the branch of that constructor, from the very same
state: if that code returns with a state satisfying `Q`, so does the match. -/
theorem C29_dispatch {cenv : CEnv} (ho : OrdOk cenv) {lenv fenv : VMap} {penv : ANF.Tag → Option Primop} {B : ANF.Defs} {E : Env}
    {mem : Nat} {s s' : St} {p i w : Nat} {t : ANF.Tag} {vs : List ANF.Val} {info : Ctor.Info} {x : ANF.Var} {bs : ANF.Brs}
    {e : ANF.Exp} {is is' : List Instr} (hst : s.stack = []) (hp : p ≤ s.pages * pageSize) (hp' : p ≤ 2 ^ 32)
    (hw : s.locals[i]? = some (.i32 w)) (hr : Rep cenv B s.mem p (.constr t vs) w) (hi : cenv t = some info)
    (hx : lenv x = some i) (hm : transE cenv lenv fenv penv (.case x bs) mem = some is) (hk : checkE cenv (.case x bs) = true)
    (hty : ∀ t' ∈ bs.tags, ∃ i', cenv t' = some i' ∧ info.indTag = i'.indTag) (hb : Branch t bs e)
    (hte : transE cenv lenv fenv penv e mem = some is') (hrun : Runs E is' s (.ret s')) : Runs E is s (.ret s') := by
  rw [transE] at hm
  obtain ⟨i', hx', hm⟩ := Option.bind_eq_some_iff.mp hm
  rw [hx] at hx'; cases hx'
  obtain ⟨⟨bx, ub⟩, hbt, hm⟩ := Option.bind_eq_some_iff.mp hm
  cases hm
  rw [checkE] at hk
  have hB := dispatch_chain ho (E := E) (n := 0) (Q := (· = s')) (F := False) hst hp hw hr hi hte (.inl ⟨s', hrun, rfl⟩) bs hbt hk hb hty
  obtain ⟨g1, g2, g3, g4⟩ := hr.word hi
  have hlt : w < 2 ^ 32 := by
    by_cases h0 : vs = []
    · have := g3 h0; omega
    · have := g4 h0; omega
  have : Ends E 0 [localGet i, w32 1, binop .t32 .and, eqz .t32, ifte [] (ifChain true i bx) (ifChain false i ub)] s (· = s') False := by
    obtain ⟨m, pg, g, l, st⟩ := s
    simp only at hst hw hB
    subst hst
    refine Ends.steps (is := [localGet i, w32 1, binop .t32 .and, eqz .t32])
      (js := [ifte [] (ifChain true i bx) (ifChain false i ub)]) (s1 := ⟨m, pg, g, l, [boolVal (decide (w % 2 = 0))]⟩) rfl ?_ ?_
    · rw [st_lget hw, st_w32 (by omega), st_bin32 (r := w % 2) ?_, st_eqz32, st_nil]
      unfold evalBin
      simp only [Nat.and_one_is_mod]
    · by_cases h0 : vs = []
      · have := g3 h0
        rw [if_pos h0] at hB
        rw [decide_eq_false (by omega)]
        exact Ends.ite (c := 0) (st := []) rfl (by rw [if_pos rfl]; exact hB)
      · have := (g4 h0).1
        rw [if_neg h0] at hB
        rw [decide_eq_true (by omega)]
        exact Ends.ite (c := 1) (st := []) rfl (by rw [if_neg (by decide)]; exact hB)
  rcases this with ⟨s1, h1, rfl⟩ | ⟨h, _⟩
  · exact h1
  · exact h.elim

/-- The code building a block, with room for it above the allocation pointer: the pointer becomes the block, which holds the
ordinal and the words of the arguments in order; the allocation pointer moves past it, and nothing below changes. -/
theorem C29_block {E : Env} {cenv : CEnv} {lenv fenv : VMap} {t : ANF.Tag} {info : Ctor.Info} {ys : List ANF.Var}
    {ws : List Nat} {is : List Instr} {s : St} {p : Nat} (hi : cenv t = some info) (ho : info.ordinal < 2 ^ 31)
    (h : List.Forall₂ (Reads lenv fenv s.locals) ys ws) (hw : ∀ w ∈ ws, w < 2 ^ 32)
    (hs : storeConstr cenv lenv fenv t ys = some is) (hp : s.globals globMemPtr = .i32 p) (hoom : s.globals globOutOfMem = .i32 0)
    (hal : p % 4 = 0) (hroom : p + 4 * (ys.length + 1) ≤ s.pages * pageSize) (hpg : s.pages ≤ maxMemPages) (hst : s.stack = []) :
    ∃ s', Runs E is s (.ok s') ∧ s'.globals globCap = .i32 p ∧ s'.globals globMemPtr = .i32 (p + 4 * (ys.length + 1)) ∧
      s'.locals = s.locals ∧ (∀ b, b < p → s'.mem b = s.mem b) ∧ loadN s'.mem p 4 = info.ordinal ∧
      ∀ (i : Nat) w, ws[i]? = some w → loadN s'.mem (p + 4 * (i + 1)) 4 = w := by
  obtain ⟨s', h1, h2, h3, h4, h5, h6, h7⟩ := storeConstr_ok (E := E) (mem := 0) hi ho h hw hs
    ⟨hp, hoom, hal, by simpa using hroom, hpg, hst⟩
  exact ⟨s', h1, h5, h2.gmp, h4, h3.mem, h6, h7⟩

/-- The code of a projection puts a word representing that argument in the local of the variable, and changes nothing else. -/
theorem C29_project {E : Env} {cenv : CEnv} {lenv fenv : VMap} {penv : ANF.Tag → Option Primop} {B : ANF.Defs} {s : St} {p i j k w : Nat}
    {t t' : ANF.Tag} {vs : List ANF.Val} {v : ANF.Val} {x y : ANF.Var} {mem : Nat} {e : ANF.Exp} {is : List Instr}
    (hst : s.stack = []) (hp : p ≤ s.pages * pageSize) (hp' : p < 2 ^ 32) (hx : lenv x = some i) (hil : i < s.locals.length)
    (hy : lenv y = some j) (hw : s.locals[j]? = some (.i32 w)) (hr : Rep cenv B s.mem p (.constr t vs) w)
    (hk : vs[k]? = some v) (ht : transE cenv lenv fenv penv (.proj x t' k y e) mem = some is) :
    ∃ code rest u, is = code ++ rest ∧ transE cenv lenv fenv penv e mem = some rest ∧
      Runs E code s (.ok { s with locals := s.locals.set i (.i32 u) }) ∧ Rep cenv B s.mem p v u := by
  rw [transE] at ht
  obtain ⟨is', ht', ht⟩ := Option.bind_eq_some_iff.mp ht
  obtain ⟨j', hy', ht⟩ := Option.bind_eq_some_iff.mp ht
  obtain ⟨i', hx', ht⟩ := Option.bind_eq_some_iff.mp ht
  rw [hy] at hy'; cases hy'
  rw [hx] at hx'; cases hx'
  cases ht
  obtain ⟨m, pg, g, l, st⟩ := s
  simp only at hst hw hil hr hp
  subst hst
  have hkl := (List.getElem?_eq_some_iff.mp hk).1
  cases hr with
  | unboxed => simp at hkl
  | boxed h1 h2 h3 h4 h5 h6 h7 h8 =>
    refine ⟨_, is', _, rfl, ht', ?_, h8 k v hk⟩
    refine Runs.steps (is := [localGet j, w32 ((k + 1) * 4), binop .t32 .add, load .t32 0, localSet i]) (bs := [])
      (s' := ⟨m, pg, g, l.set i (.i32 (loadN m (w + 4 * (k + 1)) 4)), []⟩) rfl ?_ (Runs.nil _ _)
    rw [st_lget hw, st_w32 (by omega), st_add32 (by omega), st_load32 (by omega), st_lset hil, st_nil]
    rw [Nat.add_zero, Nat.mul_comm 4 (k + 1)]

/-- The module computes the program: if the program returns `v`, calling the exported main function returns, and either the
engine refused to extend the memory and the flag says so, or the exported result represents `v`. -/
theorem C29_result {S : ANF.Sig} {penv : ANF.Tag → Option Primop} {B : ANF.Defs} {e : ANF.Exp} {funcs : List Func} {E : Env}
    (h : WasmInput S penv B e) (ht : transProg S.cenv penv (.fn B e) = some funcs) (hE : Instance E funcs) (m0 : Mem)
    {v : ANF.Val} (hv : ANF.Returns S ANF.emp (.fn B e) v) :
    ∃ main fns s', funcs = main :: fns ∧ main.params = 0 ∧ Runs E main.body (initSt m0 main) (.ret s') ∧
      (OutOfMem E s' ∨ Result S.cenv B s' v) := by
  obtain ⟨n, hn⟩ := hv
  obtain ⟨main, fns, hf, hM⟩ := module_of h ht hE
  have hp : main.params = 0 := by
    rw [transProg] at ht
    split at ht
    swap
    · cases ht
    obtain ⟨fns', h1, ht⟩ := Option.bind_eq_some_iff.mp ht
    obtain ⟨b, h2, ht⟩ := Option.bind_eq_some_iff.mp ht
    rw [hf] at ht
    cases ht
    rfl
  have := hM.main m0 n (by simp only; rw [hn]; exact fun h => by cases h)
  simp only [hn] at this
  rcases this with ⟨s', hr, hd⟩ | ⟨hF, _⟩
  · refine ⟨main, fns, s', hf, hp, hr, ?_⟩
    rcases hd with hd | ⟨v', p, w, h1, h2, h3, h4, h5⟩
    · exact .inl hd
    · cases h1
      exact .inr ⟨h3.oom, p, w, h3.gmp, by simpa using h3.room, h4, h5⟩
  · cases hF

/-! ## C30: memory -/

/-- The module never traps: no execution of the main function of a program with a meaning reaches an access outside the linear
memory, an ill-typed indirect call or `unreachable`. -/
theorem C30_no_trap {S : ANF.Sig} {penv : ANF.Tag → Option Primop} {B : ANF.Defs} {e : ANF.Exp} {main : Func} {fns : List Func}
    {E : Env} (h : WasmInput S penv B e) (ht : transProg S.cenv penv (.fn B e) = some (main :: fns)) (hE : Instance E (main :: fns))
    (m0 : Mem) (hw : ¬ ANF.GoesWrong S ANF.emp (.fn B e)) (n : Nat) : exec E n main.body (initSt m0 main) ≠ .trap := by
  obtain ⟨main', fns', hf, hM⟩ := module_of h ht hE
  cases hf
  intro htrap
  rcases hM.main m0 n (fun hs => hw ⟨n, hs⟩) with ⟨s', ⟨_, k, hr⟩, _⟩ | ⟨_, hx⟩
  · simp only at hr
    rcases exec_agree E n k (by rw [htrap]; exact fun h => by cases h) with h1 | h1
    · rw [hr] at h1; cases h1
    · rw [hr, htrap] at h1; cases h1
  · simp only at hx
    rw [htrap] at hx; cases hx

/-- A program that runs forever either runs forever as a module, or stops with the out-of-memory flag because the engine refused
to extend the memory. -/
theorem C30_diverges {S : ANF.Sig} {penv : ANF.Tag → Option Primop} {B : ANF.Defs} {e : ANF.Exp} {main : Func} {fns : List Func}
    {E : Env} (h : WasmInput S penv B e) (ht : transProg S.cenv penv (.fn B e) = some (main :: fns)) (hE : Instance E (main :: fns))
    (m0 : Mem) (hd : ANF.Diverges S ANF.emp (.fn B e)) :
    (∀ n, exec E n main.body (initSt m0 main) = .fuel) ∨ ∃ s', Runs E main.body (initSt m0 main) (.ret s') ∧ OutOfMem E s' := by
  obtain ⟨main', fns', hf, hM⟩ := module_of h ht hE
  cases hf
  by_contra hcon
  rw [not_or] at hcon
  obtain ⟨h1, h2⟩ := hcon
  apply h1
  intro n
  rcases hM.main m0 n (fun hs => by simp only [hd n] at hs; cases hs) with ⟨s', hr, hdone⟩ | ⟨_, hx⟩
  · rcases hdone with hdone | ⟨v, _, _, hv, _⟩
    · exact absurd ⟨s', hr, hdone⟩ h2
    · simp only [hd n] at hv; cases hv
  · exact hx

/-- The check before an allocation: from any allocation pointer in the memory, whatever it is modulo the page size, either the
function returns with the flag set because the engine refused to extend the memory, or a whole page is free above the pointer,
and nothing below the pointer, no local and no global has changed. -/
theorem C30_reserve {E : Env} (hE : E.maxPages = maxMemPages) {s : St} {p : Nat} (hp : s.globals globMemPtr = .i32 p)
    (ho : s.globals globOutOfMem = .i32 0) (hal : p % 4 = 0) (hroom : p ≤ s.pages * pageSize) (hpg : s.pages ≤ maxMemPages)
    (hst : s.stack = []) :
    (∃ s', Runs E (growMem ++ [ret]) s (.ret s') ∧ OutOfMem E s') ∨
    ∃ s', Runs E (growMem ++ [ret]) s (.ret s') ∧ p + pageSize ≤ s'.pages * pageSize ∧ s'.pages ≤ maxMemPages ∧
      s'.globals globMemPtr = .i32 p ∧ s'.globals globOutOfMem = .i32 0 ∧ (∀ b, b < p → s'.mem b = s.mem b) ∧ s'.locals = s.locals := by
  have := Ends.grow (E := E) (n := 0) (F := False) (is := [ret]) (s := s) (p := p) (mem := 0)
    (Q := fun s' => OutOfMem E s' ∨ (p + pageSize ≤ s'.pages * pageSize ∧ s'.pages ≤ maxMemPages ∧
      s'.globals globMemPtr = .i32 p ∧ s'.globals globOutOfMem = .i32 0 ∧ (∀ b, b < p → s'.mem b = s.mem b) ∧ s'.locals = s.locals))
    hE ⟨hp, ho, hal, by simpa using hroom, hpg, hst⟩ (fun s' h => .inl h)
    (fun s1 i1 k1 l1 => .inl ⟨s1, Runs.ret _ _ _, .inr ⟨i1.room, i1.pages, i1.gmp, i1.oom, k1.mem, l1⟩⟩)
  rcases this with ⟨s', hr, h | h⟩ | ⟨h, _⟩
  · exact .inl ⟨s', hr, h⟩
  · exact .inr ⟨s', hr, h⟩
  · exact h.elim

/-! ## C31: restrictions -/

/-- A branch of a match. -/
inductive HasBranch (t : ANF.Tag) (e : ANF.Exp) : ANF.Brs → Prop
  | here {bs : ANF.Brs} : HasBranch t e (.cons t e bs)
  | there {t' : ANF.Tag} {e' : ANF.Exp} {bs : ANF.Brs} : HasBranch t e bs → HasBranch t e (.cons t' e' bs)

/-- A function of a bundle. -/
inductive HasDef (f : ANF.Var) (xs : List ANF.Var) (e : ANF.Exp) : ANF.Defs → Prop
  | here {ft : ANF.Tag} {B : ANF.Defs} : HasDef f xs e (.cons f ft xs e B)
  | there {f' : ANF.Var} {ft' : ANF.Tag} {xs' : List ANF.Var} {e' : ANF.Exp} {B : ANF.Defs} : HasDef f xs e B →
      HasDef f xs e (.cons f' ft' xs' e' B)

/-- An expression occurs in another one. -/
inductive Occurs : ANF.Exp → ANF.Exp → Prop
  | self {e : ANF.Exp} : Occurs e e
  | constr {e d : ANF.Exp} {x : ANF.Var} {t : ANF.Tag} {ys : List ANF.Var} : Occurs d e → Occurs d (.constr x t ys e)
  | case {e d : ANF.Exp} {x : ANF.Var} {t : ANF.Tag} {bs : ANF.Brs} : HasBranch t e bs → Occurs d e → Occurs d (.case x bs)
  | proj {e d : ANF.Exp} {x y : ANF.Var} {t : ANF.Tag} {n : Nat} : Occurs d e → Occurs d (.proj x t n y e)
  | letapp {e d : ANF.Exp} {x f : ANF.Var} {ft : ANF.Tag} {ys : List ANF.Var} : Occurs d e → Occurs d (.letapp x f ft ys e)
  | fnBody {e d : ANF.Exp} {B : ANF.Defs} : Occurs d e → Occurs d (.fn B e)
  | fnDef {e eb d : ANF.Exp} {f : ANF.Var} {xs : List ANF.Var} {B : ANF.Defs} : HasDef f xs eb B → Occurs d eb → Occurs d (.fn B e)
  | primVal {e d : ANF.Exp} {x : ANF.Var} {q : ANF.PVal} : Occurs d e → Occurs d (.primVal x q e)
  | prim {e d : ANF.Exp} {x : ANF.Var} {q : ANF.Tag} {ys : List ANF.Var} : Occurs d e → Occurs d (.prim x q ys e)

/-- The limits at one expression: ordinals fit in 31 bits, blocks in a page, calls and functions have at most 100 arguments,
bundles at most a million functions. -/
inductive Within (cenv : CEnv) : ANF.Exp → Prop
  | constr {x : ANF.Var} {t : ANF.Tag} {ys : List ANF.Var} {e : ANF.Exp} {i : Ctor.Info} : cenv t = some i → i.ordinal < 2 ^ 31 →
      ys.length ≤ 1024 → Within cenv (.constr x t ys e)
  | case {x : ANF.Var} {bs : ANF.Brs} : (∀ t e, HasBranch t e bs → ∃ i, cenv t = some i ∧ i.ordinal < 2 ^ 31) →
      Within cenv (.case x bs)
  | proj {x y : ANF.Var} {t : ANF.Tag} {n : Nat} {e : ANF.Exp} : Within cenv (.proj x t n y e)
  | letapp {x f : ANF.Var} {ft : ANF.Tag} {ys : List ANF.Var} {e : ANF.Exp} : ys.length ≤ 100 → Within cenv (.letapp x f ft ys e)
  | fn {B : ANF.Defs} {e : ANF.Exp} : B.names.length ≤ 1000000 → (∀ f xs eb, HasDef f xs eb B → xs.length ≤ 100) →
      Within cenv (.fn B e)
  | app {f : ANF.Var} {ft : ANF.Tag} {ys : List ANF.Var} : ys.length ≤ 100 → Within cenv (.app f ft ys)
  | primVal {x : ANF.Var} {q : ANF.PVal} {e : ANF.Exp} : Within cenv (.primVal x q e)
  | prim {x : ANF.Var} {q : ANF.Tag} {ys : List ANF.Var} {e : ANF.Exp} : Within cenv (.prim x q ys e)
  | halt {x : ANF.Var} : Within cenv (.halt x)

theorem ordOk_iff {cenv : CEnv} {t : ANF.Tag} : ordOk cenv t = true ↔ ∃ i, cenv t = some i ∧ i.ordinal < 2 ^ 31 := by
  rw [ordOk]
  rcases cenv t with _ | i <;> simp

mutual
theorem checkE_sound {cenv : CEnv} : ∀ (e : ANF.Exp), checkE cenv e = true → ∀ d, Occurs d e → Within cenv d
  | .constr x t ys e, h, d, hd => by
    rw [checkE, Bool.and_eq_true, Bool.and_eq_true] at h
    obtain ⟨i, h1, h2⟩ := ordOk_iff.mp h.1.1
    cases hd with
    | self => exact .constr h1 h2 (of_decide_eq_true h.1.2)
    | constr hd => exact checkE_sound e h.2 d hd
  | .case x bs, h, d, hd => by
    rw [checkE] at h
    cases hd with
    | self => exact .case fun t e hb => (checkB_sound bs h t e hb).1
    | case hb hd => exact (checkB_sound bs h _ _ hb).2 d hd
  | .proj x t n y e, h, d, hd => by
    rw [checkE] at h
    cases hd with
    | self => exact .proj
    | proj hd => exact checkE_sound e h d hd
  | .letapp x f ft ys e, h, d, hd => by
    rw [checkE, Bool.and_eq_true] at h
    cases hd with
    | self => exact .letapp (of_decide_eq_true h.1)
    | letapp hd => exact checkE_sound e h.2 d hd
  | .fn B e, h, d, hd => by
    rw [checkE, Bool.and_eq_true, Bool.and_eq_true, numDefs_names] at h
    cases hd with
    | self => exact .fn (of_decide_eq_true h.1.1) fun f xs eb hb => (checkD_sound B h.1.2 f xs eb hb).1
    | fnBody hd => exact checkE_sound e h.2 d hd
    | fnDef hb hd => exact (checkD_sound B h.1.2 _ _ _ hb).2 d hd
  | .app f ft ys, h, d, hd => by
    rw [checkE] at h
    cases hd with
    | self => exact .app (of_decide_eq_true h)
  | .primVal x q e, h, d, hd => by
    rw [checkE] at h
    cases hd with
    | self => exact .primVal
    | primVal hd => exact checkE_sound e h d hd
  | .prim x q ys e, h, d, hd => by
    rw [checkE] at h
    cases hd with
    | self => exact .prim
    | prim hd => exact checkE_sound e h d hd
  | .halt x, h, d, hd => by
    cases hd with
    | self => exact .halt
theorem checkB_sound {cenv : CEnv} : ∀ (bs : ANF.Brs), checkB cenv bs = true → ∀ t e, HasBranch t e bs →
    (∃ i, cenv t = some i ∧ i.ordinal < 2 ^ 31) ∧ ∀ d, Occurs d e → Within cenv d
  | .nil, _, t, e, hb => by cases hb
  | .cons t' e' bs, h, t, e, hb => by
    rw [checkB, Bool.and_eq_true, Bool.and_eq_true] at h
    have h1 := checkE_sound e' h.1.2
    have h2 := checkB_sound bs h.2 t e
    cases hb with
    | here => exact ⟨ordOk_iff.mp h.1.1, h1⟩
    | there hb => exact h2 hb
theorem checkD_sound {cenv : CEnv} : ∀ (B : ANF.Defs), checkD cenv B = true → ∀ f xs e, HasDef f xs e B →
    xs.length ≤ 100 ∧ ∀ d, Occurs d e → Within cenv d
  | .nil, _, f, xs, e, hb => by cases hb
  | .cons f' ft' xs' e' B, h, f, xs, e, hb => by
    rw [checkD, Bool.and_eq_true, Bool.and_eq_true] at h
    have h1 := checkE_sound e' h.2
    have h2 := checkD_sound B h.1.2 f xs e
    cases hb with
    | here => exact ⟨of_decide_eq_true h.1.1, h1⟩
    | there hb => exact h2 hb
end

mutual
theorem checkE_complete {cenv : CEnv} : ∀ (e : ANF.Exp), (∀ d, Occurs d e → Within cenv d) → checkE cenv e = true
  | .constr x t ys e, h => by
    rw [checkE, Bool.and_eq_true, Bool.and_eq_true]
    have h1 := checkE_complete e fun d hd => h d (.constr hd)
    cases h _ .self with
    | constr a b c => exact ⟨⟨ordOk_iff.mpr ⟨_, a, b⟩, decide_eq_true c⟩, h1⟩
  | .case x bs, h => by
    rw [checkE]
    refine checkB_complete bs fun t e hb => ⟨?_, fun d hd => h d (.case hb hd)⟩
    cases h _ .self with
    | case a => exact a t e hb
  | .proj x t n y e, h => by
    rw [checkE]
    exact checkE_complete e fun d hd => h d (.proj hd)
  | .letapp x f ft ys e, h => by
    rw [checkE, Bool.and_eq_true]
    have h1 := checkE_complete e fun d hd => h d (.letapp hd)
    cases h _ .self with
    | letapp a => exact ⟨decide_eq_true a, h1⟩
  | .fn B e, h => by
    rw [checkE, Bool.and_eq_true, Bool.and_eq_true, numDefs_names]
    have h1 := checkE_complete e fun d hd => h d (.fnBody hd)
    have h2 := checkD_complete B fun f xs eb hb => ⟨(by
      cases h _ .self with
      | fn a b => exact b f xs eb hb), fun d hd => h d (.fnDef hb hd)⟩
    cases h _ .self with
    | fn a b => exact ⟨⟨decide_eq_true a, h2⟩, h1⟩
  | .app f ft ys, h => by
    rw [checkE]
    cases h _ .self with
    | app a => exact decide_eq_true a
  | .primVal x q e, h => by
    rw [checkE]
    exact checkE_complete e fun d hd => h d (.primVal hd)
  | .prim x q ys e, h => by
    rw [checkE]
    exact checkE_complete e fun d hd => h d (.prim hd)
  | .halt x, h => by rw [checkE]
theorem checkB_complete {cenv : CEnv} : ∀ (bs : ANF.Brs), (∀ t e, HasBranch t e bs →
    (∃ i, cenv t = some i ∧ i.ordinal < 2 ^ 31) ∧ ∀ d, Occurs d e → Within cenv d) → checkB cenv bs = true
  | .nil, _ => by rw [checkB]
  | .cons t e bs, h => by
    rw [checkB, Bool.and_eq_true, Bool.and_eq_true]
    exact ⟨⟨ordOk_iff.mpr (h t e .here).1, checkE_complete e (h t e .here).2⟩, checkB_complete bs fun t' e' hb => h t' e' (.there hb)⟩
theorem checkD_complete {cenv : CEnv} : ∀ (B : ANF.Defs), (∀ f xs e, HasDef f xs e B →
    xs.length ≤ 100 ∧ ∀ d, Occurs d e → Within cenv d) → checkD cenv B = true
  | .nil, _ => by rw [checkD]
  | .cons f ft xs e B, h => by
    rw [checkD, Bool.and_eq_true, Bool.and_eq_true]
    exact ⟨⟨decide_eq_true (h f xs e .here).1, checkD_complete B fun f' xs' e' hb => h f' xs' e' (.there hb)⟩,
      checkE_complete e (h f xs e .here).2⟩
end

/-- The restriction check accepts exactly the programs all of whose subexpressions are within the limits. -/
theorem C31_accepts_iff (cenv : CEnv) (e : ANF.Exp) : checkE cenv e = true ↔ ∀ d, Occurs d e → Within cenv d :=
  ⟨fun h => checkE_sound e h, checkE_complete e⟩

/-- If the restriction check rejects a program, some subexpression is outside the limits. -/
theorem C31_rejects {cenv : CEnv} {e : ANF.Exp} (h : checkE cenv e = false) : ∃ d, Occurs d e ∧ ¬ Within cenv d := by
  by_contra hcon
  have : checkE cenv e = true := (C31_accepts_iff cenv e).mpr fun d hd => by
    by_contra hw
    exact hcon ⟨d, hd, hw⟩
  rw [h] at this
  cases this

/-- No module is emitted for a rejected program. -/
theorem C31_no_module {cenv : CEnv} {penv : ANF.Tag → Option Primop} {e d : ANF.Exp} (hd : Occurs d e) (hw : ¬ Within cenv d) :
    transProg cenv penv e = none := by
  unfold transProg
  rw [if_neg]
  exact fun h => hw ((C31_accepts_iff cenv e).mp h d hd)

end Wasm
