import Verif.CGen.RtAbort
import Verif.CGen.Props

/-!
# Property C56: compiled C code linked with the collector of the runtime

C24-C26 are about any collector that meets a specification, C11-C17 about `garbage_collect` on its own.  Here the generated
code runs with `garbage_collect` itself, from the state `make_tinfo` leaves.  Calling the collector in a state its
correctness proof does not cover is undefined behaviour.
-/

namespace CGen

open ANF

/-- A program the backend is given, the runtime it is linked to and the place of both in memory. `a` is the address of the
nursery. -/
structure Loaded (R : Rt) (a : Nat) (S : Sig) (C : Cfg) (prim : Tag → List CVal → (Nat → Option CVal) → Option CVal)
    (primT : Tag → List CVal → Th → Out) (B : Defs) (e : Exp) (body : Var) (M : CFun × List CFun) : Prop where
  fits : R.Fits B
  nursery : 0 < a ∧ ∀ x, R.Static x → x < a ∨ a + GC.nurserySize ≤ x
  cenv : C.cenv = S.cenv
  ctors : CtorsOk S.cenv
  prims : PrimsOk R.heapI S C.prims B (R.world S.cenv B prim primT)
  result : C.result ∉ B.names
  compiled : compileC C body (.fn B e) = some M
  seen : SeenE S.cenv (.fn B e)
  binders : (Exp.fn B e).bv.Nodup
  closed : (Exp.fn B e).fv = ∅

/-- The collector, applied to the memory and frames of generated code, does what generated code relies on: all roots of all
frames on the list are forwarded, the objects they reach keep their contents, and the reserved words are free. -/
theorem C56_collector {R : Rt} {B : Defs} {cenv : Ctor.PMap Ctor.Info} (hR : R.Fits B) (hc : CtorsOk cenv)
    (prim : Tag → List CVal → (Nat → Option CVal) → Option CVal) (primT : Tag → List CVal → Th → Out) :
    GcOk R.heapI cenv B (R.world cenv B prim primT) := Rt.collect_ok hR hc rfl

/-- The allocations of generated code keep the heap as the collector expects it. -/
theorem C56_allocation {R : Rt} {B : Defs} {cenv : Ctor.PMap Ctor.Info} (hR : R.Fits B) : R.heapI.Laws cenv B :=
  Rt.heapI_laws hR

/-- The state after `make_tinfo` is one in which the program may run. -/
theorem C56_start {R : Rt} {B : Defs} {cenv : Ctor.PMap Ctor.Info} {a : Nat} (ha : 0 < a)
    (hs : ∀ x, R.Static x → x < a ∨ a + GC.nurserySize ≤ x) :
    (R.start a).Ok R.heapI cenv B ∧ (R.start a).alloc ≤ (R.start a).limit ∧ ∀ k, ¬ OnChain (R.start a) k := by
  refine ⟨Rt.start_ok ha hs, Nat.le_add_right _ _, fun k hk => ?_⟩
  induction hk with
  | top h => cases h
  | step _ _ ih => exact ih

section
variable {R : Rt} {a : Nat} {S : Sig} {C : Cfg} {prim : Tag → List CVal → (Nat → Option CVal) → Option CVal}
  {primT : Tag → List CVal → Th → Out} {B : Defs} {e : Exp} {body : Var} {M : CFun × List CFun}

theorem Loaded.linked (h : Loaded R a S C prim primT B e body M) :
    Linked R.heapI S C (R.world S.cenv B prim primT) B e body M :=
  ⟨h.cenv, h.ctors, C56_collector h.fits h.ctors prim primT, h.prims, C56_allocation h.fits, h.result, h.compiled, h.seen,
    h.binders, h.closed⟩

/-- Started after `make_tinfo`, the program returns a representation of the value the source program returns, or the
process is aborted. -/
theorem C56_returns_partial (hL : Loaded R a S C prim primT B e body M) {v : Val} (hr : Returns S emp (.fn B e) v) (d : Nat) :
    ∃ n, runC (R.world S.cenv B prim primT) M n d (R.start a) = .abort ∨
      ∃ c h', runC (R.world S.cenv B prim primT) M n d (R.start a) = .ret c h' ∧
        VRep R.heapI S.cenv B h'.mem h'.alloc h'.limit v c := by
  obtain ⟨h1, h2, h3⟩ := C56_start (R := R) (B := B) (cenv := S.cenv) hL.nursery.1 hL.nursery.2
  exact C24_returns_partial hL.linked hr d (R.start a) (fun k hk => absurd hk (h3 k)) h2 h1

/-- Programs that do not terminate are compiled to programs that do not return. -/
theorem C56_diverges_partial (hL : Loaded R a S C prim primT B e body M) (hr : Diverges S emp (.fn B e)) (n d : Nat) :
    runC (R.world S.cenv B prim primT) M n d (R.start a) = .abort ∨ runC (R.world S.cenv B prim primT) M n d (R.start a) = .oot := by
  obtain ⟨h1, h2, h3⟩ := C56_start (R := R) (B := B) (cenv := S.cenv) hL.nursery.1 hL.nursery.2
  exact C24_diverges_partial hL.linked hr n d (R.start a) (fun k hk => absurd hk (h3 k)) h2 h1

/-- A program that does not go wrong has no undefined behaviour: no store outside the nursery or a frame, no read of a word
that is not there, no call of the collector with a heap or a frame that is not as it should be. -/
theorem C56_defined_partial (hL : Loaded R a S C prim primT B e body M) (hw : ¬ GoesWrong S emp (.fn B e)) (n d : Nat) :
    runC (R.world S.cenv B prim primT) M n d (R.start a) ≠ .ub := by
  obtain ⟨h1, h2, h3⟩ := C56_start (R := R) (B := B) (cenv := S.cenv) hL.nursery.1 hL.nursery.2
  exact C25_no_overflow_partial hL.linked hw n d (R.start a) (fun k hk => absurd hk (h3 k)) h2 h1

/-- No function of the generated code reserves more words than its constructor applications have together. -/
theorem C56_reserves {K : Nat} (hM : compileC C body (.fn B e) = some M) (hB : WordsB K B) (he : wordsE e ≤ K) :
    Reserves K M.1.body ∧ ∀ F ∈ M.2, Reserves K F.body := reserves_compile hM hB he

/-- If no reservation of the program is larger than the nursery and primitives do not abort, the process is aborted only
because `malloc` failed or more than `2^57` words were in use: there is a state, as the collector expects it, in which this is the case. -/
theorem C56_abort (hR : R.Fits B) {cenv : Ctor.PMap Ctor.Info} (hM : Reserves GC.nurserySize M.1.body)
    (hP : ∀ F ∈ M.2, Reserves GC.nurserySize F.body)
    (hp : ∀ p cs h, h.nalloc ≤ GC.nurserySize → Asks GC.nurserySize False (primT p cs h)) (n d : Nat)
    (hx : runC (R.world cenv B prim primT) M n d (R.start a) = .abort) :
    ∃ h, h.Ok R.heapI cenv B ∧ ((∃ j, R.malloc (R.heapOf h.mem) j = none) ∨
      ∃ N, (∀ i, i < N ↔ (R.heapOf h.mem i).start ≠ 0) ∧ 2 ^ 57 < ∑ k ∈ Finset.range N, (GC.currentHeap (R.enc h) k).used) := by
  have := runC_asks (W := R.world cenv B prim primT) (K := GC.nurserySize) (A := ∃ h, h.Ok R.heapI cenv B ∧
      ((∃ j, R.malloc (R.heapOf h.mem) j = none) ∨
      ∃ N, (∀ i, i < N ↔ (R.heapOf h.mem i).start ≠ 0) ∧ 2 ^ 57 < ∑ k ∈ Finset.range N, (GC.currentHeap (R.enc h) k).used))
    (fun h h' => Rt.collect_nalloc) (fun h hn ha => ?_) (fun p cs h hn => ?_) hM hP n d (R.start a) (Nat.zero_le _)
  · rw [hx] at this; exact this
  · have hok : h.Ok R.heapI cenv B := by
      by_contra hc
      have : R.collect cenv B h = .ub := by unfold Rt.collect; rw [if_neg hc]
      rw [show (R.world cenv B prim primT).gc h = R.collect cenv B h from rfl, this] at ha
      cases ha
    rcases Rt.collect_abort hR ha with h1 | h1 | h1
    · exact ⟨h, hok, .inl h1⟩
    · omega
    · exact ⟨h, hok, .inr h1⟩
  · have := hp p cs h hn
    show Asks _ _ (primT p cs h)
    cases hx : primT p cs h with
    | abort => rw [hx] at this; exact this.elim
    | norm l h' => rw [hx] at this; exact this
    | brk l h' => rw [hx] at this; exact this
    | ret c h' => rw [hx] at this; exact this
    | oot => trivial
    | ub => trivial

end

/-! ## A layout and a program -/

open Classical in
/-- An address space: descriptors, code, then the spaces (generation `k` from `1024 + 2^k * size` on), then the stack.
`malloc` succeeds when the spaces in use are below the place of the next one. -/
noncomputable def arena : Rt where
  Static x := x < 1024 ∨ 1024 + 2 ^ 44 * GC.nurserySize ≤ x
  code f := f
  desc := 512
  stack := 1024 + 2 ^ 44 * GC.nurserySize
  depth := 0
  malloc H i := if (∀ j, (H j).start ≠ 0 → (H j).remLimit ≤ 1024 + 2 ^ (i + 1) * (H 0).size) ∧
      2 ^ (i + 2) * (H 0).size ≤ 2 ^ 44 * GC.nurserySize then some (1024 + 2 ^ (i + 1) * (H 0).size) else none

theorem arena_fits (B : Defs) (hB : ∀ f ∈ B.names, f < 512) : arena.Fits B where
  code f hf := .inl (by have := hB f hf; show (f : Nat) < 1024; exact Nat.lt_trans this (by decide))
  codeNe _ _ _ _ h := h
  desc j hj := .inl (by show 512 + j < 1024; unfold GC.maxSpaces at hj; omega)
  stack _ hx := .inr hx
  malloc H N hN hiff := by
    constructor
    · intro i b hi hb
      simp only [arena] at hb
      split at hb
      case isFalse => cases hb
      rename_i hc
      cases hb
      have e2 : 2 ^ (i + 2) * (H 0).size = 2 ^ (i + 1) * (H 0).size + 2 ^ (i + 1) * (H 0).size := by rw [Nat.pow_succ]; ring
      refine ⟨by omega, fun j hj => .inr (hc.1 j ((hiff j).1 hj)), fun x hx => ?_⟩
      rcases hx with hx | hx
      · rcases hx with hx | hx
        · left; omega
        · right; have := hc.2; omega
      · cases hx
    · intro i j b c hi hj hij hb hcj
      simp only [arena] at hb hcj
      split at hb
      case isFalse => cases hb
      split at hcj
      case isFalse => cases hcj
      cases hb; cases hcj
      rcases Nat.lt_or_gt_of_ne hij with h | h
      · left
        have := Nat.mul_le_mul_right (H 0).size (Nat.pow_le_pow_right (n := 2) (by omega) (show i + 2 ≤ j + 1 by omega))
        have e2 : 2 ^ (i + 2) * (H 0).size = 2 ^ (i + 1) * (H 0).size + 2 ^ (i + 1) * (H 0).size := by rw [Nat.pow_succ]; ring
        omega
      · right
        have := Nat.mul_le_mul_right (H 0).size (Nat.pow_le_pow_right (n := 2) (by omega) (show j + 2 ≤ i + 1 by omega))
        have e2 : 2 ^ (j + 2) * (H 0).size = 2 ^ (j + 1) * (H 0).size + 2 ^ (j + 1) * (H 0).size := by rw [Nat.pow_succ]; ring
        omega

theorem arena_nursery : 0 < 1024 ∧ ∀ x, arena.Static x → x < 1024 ∨ 1024 + GC.nurserySize ≤ x := by
  refine ⟨by decide, fun x hx => ?_⟩
  rcases hx with hx | hx
  · exact .inl hx
  · right; unfold GC.nurserySize at hx ⊢; omega

/-- The program of C24, loaded in this address space: it is compiled, returns the number 2 and cannot be aborted for a
reservation that is too large. -/
example : ∃ M, Loaded arena 1024 sigNat cfgNat (fun _ _ _ => none) (fun _ _ _ => .ub) defsNat mainNat 1 M ∧
    Returns sigNat emp (.fn defsNat mainNat) (natVal 2) ∧ Reserves GC.nurserySize M.1.body ∧
    (∀ F ∈ M.2, Reserves GC.nurserySize F.body) ∧
    ∀ (p : Tag) (cs : List CVal) (h : Th), h.nalloc ≤ GC.nurserySize → Asks GC.nurserySize False ((fun _ _ _ => .ub : Tag → List CVal → Th → Out) p cs h) := by
  obtain ⟨M, hM⟩ := compiles_nat
  obtain ⟨h1, h2⟩ := C56_reserves (K := GC.nurserySize) hM
    (by simp [WordsB, defsNat, wordsE, wordsBs, GC.nurserySize]) (by simp [mainNat, wordsE, GC.nurserySize])
  exact ⟨M, ⟨arena_fits _ (by decide), arena_nursery, rfl, cenvNat_ok, prims_none _ _ _ _, by decide, hM, seen_nat, by decide,
    by decide⟩, returns_nat, h1, h2, fun _ _ _ _ => trivial⟩

/-- In this address space `malloc` provides the second generation. -/
example : ∃ b, arena.malloc (arena.heapOf (arena.start 1024).mem) 0 = some b := by
  rw [Rt.start_heap]
  refine ⟨1024 + 2 ^ 1 * GC.nurserySize, ?_⟩
  have h0 : (GC.createHeap 1024 0).size = GC.nurserySize := by
    simp [GC.createHeap, GC.setSpace, GC.createSpace, GC.Space.size]
  simp only [arena]
  rw [h0, if_pos]
  refine ⟨fun j hj => ?_, by decide⟩
  by_cases c : j = 0
  · subst c; simp [GC.createHeap, GC.setSpace, GC.createSpace]; omega
  · simp [GC.createHeap, GC.setSpace, c, GC.nullSpace] at hj

end CGen
