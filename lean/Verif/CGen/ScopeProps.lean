import Verif.CGen.ScopeGen

/-!
# C65: every name used in the C file is declared, and none twice
-/

namespace CGen.Text

open ANF
open CPrint (CE CS LS CTy CFn Name Same ReadsFn NamesOk NEnv)

/-- What the headers declare: the collector and the C functions. -/
def header (N : Names) (prims : Tag → Option Bool) (n : Name) : Prop := n = N.ext 80 ∨ ∃ p, prims p ≠ none ∧ n = N.ext p

/-- What is assumed of a program: closed, binders distinct, and all identifiers of it and of the C functions after the compiler's own. -/
structure Tidy (prims : Tag → Option Bool) (B : Defs) (e : Exp) : Prop where
  binders : (Exp.fn B e).bv.Nodup
  closed : (Exp.fn B e).fv = ∅
  own : ∀ x ∈ (Exp.fn B e).bv, 93 < x ∧ prims x = none
  prims : ∀ p, prims p ≠ none → 93 < p

/-! ## Proofs -/

section
variable {t v t' v' : Name → Prop}

theorem within_mono (h1 : ∀ n, t n → t' n) (h2 : ∀ n, v n → v' n) : ∀ (e : CE), Within t v e → Within t' v' e
  | .var x, h => h2 x h
  | .temp x, h => h1 x h
  | .deref e, h => within_mono h1 h2 e h
  | .field e _, h => within_mono h1 h2 e h
  | .cint _ _, _ => trivial
  | .clong _ _, _ => trivial
  | .unop _ e, h => within_mono h1 h2 e h
  | .addrof e, h => within_mono h1 h2 e h
  | .binop _ a b, h => ⟨within_mono h1 h2 a h.1, within_mono h1 h2 b h.2⟩
  | .cast e _, h => within_mono h1 h2 e h
  | .sizeof _, _ => trivial
  | .alignof _, _ => trivial

mutual
theorem withinS_mono (h1 : ∀ n, t n → t' n) (h2 : ∀ n, v n → v' n) : ∀ (s : CS), WithinS t v s → WithinS t' v' s
  | .skip, _ => trivial
  | .assign a b, h => ⟨within_mono h1 h2 a h.1, within_mono h1 h2 b h.2⟩
  | .set x e, h => ⟨h1 x h.1, within_mono h1 h2 e h.2⟩
  | .call r f as, h => ⟨fun x hx => h1 x (h.1 x hx), within_mono h1 h2 f h.2.1, fun a ha => within_mono h1 h2 a (h.2.2 a ha)⟩
  | .seq a b, h => ⟨withinS_mono h1 h2 a h.1, withinS_mono h1 h2 b h.2⟩
  | .ite e a b, h => ⟨within_mono h1 h2 e h.1, withinS_mono h1 h2 a h.2.1, withinS_mono h1 h2 b h.2.2⟩
  | .switch e ls, h => ⟨within_mono h1 h2 e h.1, withinL_mono h1 h2 ls h.2⟩
  | .brk, _ => trivial
  | .ret none, _ => trivial
  | .ret (some e), h => within_mono h1 h2 e h
theorem withinL_mono (h1 : ∀ n, t n → t' n) (h2 : ∀ n, v n → v' n) : ∀ (ls : LS), WithinL t v ls → WithinL t' v' ls
  | .nil, _ => trivial
  | .cons _ s ls, h => ⟨withinS_mono h1 h2 s h.1, withinL_mono h1 h2 ls h.2⟩
end
end

variable {N : Names} {C : Cfg}

theorem map_nodup {α β : Type} {f : α → β} (hf : ∀ {x y}, f x = f y → x = y) {l : List α} (h : l.Nodup) : (l.map f).Nodup :=
  h.map fun _ _ e => hf e

theorem decl_names (N : Names) (ty : CTy) (xs : List Var) : (xs.map fun x => (N.tmp x, ty)).map (·.1) = xs.map N.tmp := by
  simp [Function.comp_def]

/-- The names outside a function. -/
def outer (N : Names) (prims : Tag → Option Bool) (fns : List Var) (n : Name) : Prop := n ∈ fns.map N.ext ∨ header N prims n

theorem vars_ok (hI : N.Inj) {size : Nat} {prims : Tag → Option Bool} {fns : List Var} (h1 : ∀ f ∈ fns, 84 < f) (h2 : ∀ p, prims p ≠ none → 93 < p) :
    ((stackDecl N size).map (·.1)).Nodup ∧ ∀ x ∈ (stackDecl N size).map (·.1), ¬ outer N prims fns x := by
  constructor
  · simp only [stackDecl, List.map_cons, List.map_nil, List.nodup_cons, List.mem_singleton, List.not_mem_nil, not_false_iff, List.nodup_nil, and_true]
    exact fun h => absurd (hI.ext h) (by decide)
  · intro x hx h
    have hx : x = N.ext 79 ∨ x = N.ext 84 := by simpa [stackDecl] using hx
    have hlt : ∀ y : Var, 84 < y → x ≠ N.ext y := by
      intro y hy e
      rcases hx with rfl | rfl
      · have := hI.ext e; subst this; exact absurd hy (by decide)
      · have := hI.ext e; subst this; exact absurd hy (by decide)
    rcases h with h | h | ⟨p, hp, e⟩
    · obtain ⟨f, hf, rfl⟩ := List.mem_map.1 h
      exact hlt f (h1 f hf) rfl
    · rcases hx with rfl | rfl <;> exact absurd (hI.ext h) (by decide)
    · exact hlt p (Nat.lt_trans (by decide : 84 < 93) (h2 p hp)) e

theorem body_in (size : Nat) {T : Var → Prop} {fns fs : List Var} (hf : ∀ f ∈ fs, f ∈ fns) {ts : List Name} (ht : ∀ x, T x → N.tmp x ∈ ts) {s : CS}
    (h : WithinS (tn N T) (vn N fun x => x = 79 ∨ x = 84 ∨ x = 80 ∨ x ∈ fs ∨ C.prims x ≠ none) s) :
    WithinS (· ∈ ts) (fun x => x ∈ (stackDecl N size).map (·.1) ∨ outer N C.prims fns x) s := by
  refine withinS_mono ?_ ?_ s h
  · rintro n ⟨x, hx, rfl⟩
    exact ht x hx
  · rintro n ⟨x, hx, rfl⟩
    rcases hx with rfl | rfl | rfl | hx | hx
    · exact .inl (by simp [stackDecl])
    · exact .inl (by simp [stackDecl])
    · exact .inr (.inr (.inl rfl))
    · exact .inr (.inl (List.mem_map_of_mem (hf x hx)))
    · exact .inr (.inr (.inr ⟨x, hx, rfl⟩))

theorem mkFun_names (N : Names) (np : Nat) (f : Var) (size : Nat) (vs loc : List Var) (b : CS) :
    ((mkFun N np f size vs loc b).params ++ (mkFun N np f size vs loc b).temps).map (·.1) = (91 :: (vs ++ (loc ++ [28, 29, 26, 83, 93]))).map N.tmp := by
  have h : (vs ++ (loc ++ [28, 29, 26, 83, 93])).map N.tmp = (vs.take np ++ (vs.drop np ++ (loc ++ [28, 29, 26, 83, 93]))).map N.tmp := by
    rw [← List.append_assoc (vs.take np), List.take_append_drop]
  rw [List.map_cons, h]
  simp [mkFun, Function.comp_def]

theorem genDef_scoped (hI : N.Inj) (hC : C.result = 93) {fenv : FEnv} {fns fs : List Var} (hfs : ∀ f ∈ fs, f ∈ fns) (h84 : ∀ f ∈ fns, 84 < f)
    (h93 : ∀ p, C.prims p ≠ none → 93 < p) {f : Var} {t : Tag} {vs : List Var} {e : Exp} {G : CFn} (hn : (vs ++ e.bv).Nodup)
    (hb : ∀ x ∈ vs ++ e.bv, 93 < x) (hv : ∀ x ∈ e.fv \ vs.toFinset, x ∈ fs) (hp : PlainE fs true e)
    (h : genDef N C fenv fs f t vs e = some G) : G.name = N.ext f ∧ FnScoped (outer N C.prims fns) G := by
  unfold genDef at h
  split at h
  · cases h
  · next l ind hi =>
    simp only at h
    split at h
    · next asgn body n h1 h2 =>
      cases h
      refine ⟨rfl, ?_⟩
      let T : Var → Prop := fun x => x ∈ 91 :: (vs ++ (localsE e ++ [28, 29, 26, 83, 93]))
      have ho : Own T (fun x => x = 79 ∨ x = 84 ∨ x = 80 ∨ x ∈ fs ∨ C.prims x ≠ none) := by constructor <;> simp [T]
      have hnames' := fun b => mkFun_names N C.nParam f (max (elements (e.fv ∩ vs.toFinset)).length n) vs (localsE e) b
      have hsub := localsE_bv e
      have hnd : (91 :: (vs ++ (localsE e ++ [28, 29, 26, 83, 93]))).Nodup := by
        have h5 : (vs ++ localsE e).Nodup := List.Nodup.sublist (List.Sublist.append_left hsub vs) hn
        have h6 : ∀ x ∈ vs ++ localsE e, 93 < x := fun x hx => hb x ((List.Sublist.append_left hsub vs).subset hx)
        rw [← List.append_assoc, List.nodup_cons, List.nodup_append]
        refine ⟨?_, h5, by decide, ?_⟩
        · intro hx
          rcases List.mem_append.1 hx with hx | hx
          · exact absurd (h6 91 hx) (by decide)
          · exact absurd hx (by decide)
        · intro x hx y hy hxy
          subst hxy
          have := h6 x hx
          have h7 : x = 28 ∨ x = 29 ∨ x = 26 ∨ x = 83 ∨ x = 93 := by simpa using hy
          rcases h7 with rfl | rfl | rfl | rfl | rfl <;> exact absurd this (by decide)
      obtain ⟨hv1, hv2⟩ := vars_ok (N := N) hI (size := max (elements (e.fv ∩ vs.toFinset)).length n) h84 h93
      refine ⟨by rw [hnames']; exact map_nodup (f := N.tmp) (fun h => hI.tmp h) hnd, hv1, hv2, ?_⟩
      rw [hnames']
      refine body_in (T := T) _ hfs (fun x hx => List.mem_map_of_mem hx) ?_
      have hvs : ∀ x ∈ vs, T x := fun x hx => by simp [T, hx]
      have hle : ∀ x ∈ localsE e, T x := fun x hx => by simp [T, hx]
      refine ⟨loadAlloc_in ho, loadLimit_in ho, loadArgs_in ho, asgnFunVars_in ho (fun x hx => hvs x (List.mem_of_mem_drop hx)) h1, initStack_in ho,
        gcCall_in ho _ _ _ (fun x hx => hvs x (by simpa using (Finset.mem_inter.1 (mem_elements.1 hx)).2)), ?_⟩
      refine genE_in ho (fun g hg => .inr (.inr (.inr (.inl hg)))) (fun p hp => .inr (.inr (.inr (.inr hp)))) (fun x hx => ?_)
        (tail := true) (fun _ => by simp [T, hC]) e hle (fun x hx => ?_) hp h2
      · rcases Finset.mem_union.1 hx with hx | hx
        · exact hvs x (by simpa using hx)
        · exact hle x (by simpa using hx)
      · by_cases hxv : x ∈ vs
        · exact .inl (hvs x hxv)
        · exact .inr (hv x (Finset.mem_sdiff.2 ⟨hx, by simpa using hxv⟩))
    · cases h

theorem genDefs_scoped (hI : N.Inj) (hC : C.result = 93) {fenv : FEnv} {fns fs : List Var} (hfs : ∀ f ∈ fs, f ∈ fns) (h84 : ∀ f ∈ fns, 84 < f)
    (h93 : ∀ p, C.prims p ≠ none → 93 < p) : ∀ {B : Defs} {P : List CFn}, B.bv.Nodup → (∀ x ∈ B.bv, 93 < x) → (∀ x ∈ B.fvRaw, x ∈ fs) →
    PlainB fs B → genDefs N C fenv fs B = some P → P.map (·.name) = B.names.map N.ext ∧ ∀ G ∈ P, FnScoped (outer N C.prims fns) G
  | .nil, P, _, _, _, _, h => by
    cases h
    exact ⟨rfl, by simp⟩
  | .cons f t vs e B, P, hn, hb, hv, hp, h => by
    rw [genDefs] at h
    split at h
    · next P' F hP hF =>
      cases h
      rw [Defs.bv] at hn hb
      rw [Defs.fvRaw] at hv
      have h1 : (vs ++ e.bv ++ B.bv).Nodup := by rw [List.append_assoc]; exact (List.nodup_cons.1 hn).2
      have h2 : ∀ x ∈ vs ++ e.bv ++ B.bv, 93 < x := fun x hx => hb x (List.mem_cons_of_mem _ (by rwa [List.append_assoc] at hx))
      obtain ⟨g1, g2⟩ := genDef_scoped hI hC hfs h84 h93 (List.nodup_append.1 h1).1 (fun x hx => h2 x (List.mem_append_left _ hx))
        (fun x hx => hv x (Finset.mem_union_left _ hx)) hp.1 hF
      obtain ⟨g3, g4⟩ := genDefs_scoped hI hC hfs h84 h93 (List.nodup_append.1 h1).2.1 (fun x hx => h2 x (List.mem_append_right _ hx))
        (fun x hx => hv x (Finset.mem_union_right _ hx)) hp.2 hP
      refine ⟨by rw [List.map_cons, g1, g3]; rfl, fun G hG => ?_⟩
      rcases List.mem_cons.1 hG with rfl | hG
      · exact g2
      · exact g4 G hG
    · cases h

theorem program_scoped (hI : N.Inj) (hC : C.result = 93) {B : Defs} {e : Exp} (ht : Tidy C.prims B e) (hpB : PlainB B.names B)
    (hpe : PlainE B.names false e) {K : CFn × List CFn} (h : genProgram N C 90 (.fn B e) = some K) :
    FileScoped (header N C.prims) (K.1 :: K.2) := by
  simp only [genProgram] at h
  split at h
  · split at h
    · next P s n hP hs =>
      cases h
      have hbn := ht.binders
      have hown := ht.own
      rw [Exp.bv] at hbn hown
      obtain ⟨hn1, hn2, -⟩ := List.nodup_append.1 hbn
      have hclosed : ∀ x, x ∈ B.fvRaw ∪ e.fv → x ∈ B.names := by
        intro x hx
        by_contra hn
        have : x ∈ (Exp.fn B e).fv := by rw [Exp.fv]; exact Finset.mem_sdiff.2 ⟨hx, by simpa using hn⟩
        rw [ht.closed] at this
        simp at this
      have hnm : ∀ x ∈ B.names, x ∈ B.bv := fun x hx => (names_bv B).subset hx
      have h84 : ∀ f ∈ 90 :: B.names, 84 < f := by
        intro f hf
        rcases List.mem_cons.1 hf with rfl | hf
        · decide
        · exact Nat.lt_trans (by decide : 84 < 93) (hown f (List.mem_append_left _ (hnm f hf))).1
      obtain ⟨g1, g2⟩ := genDefs_scoped (N := N) hI hC (fns := 90 :: B.names) (fun f hf => List.mem_cons_of_mem _ hf) h84 ht.prims hn1
        (fun x hx => (hown x (List.mem_append_left _ hx)).1) (fun x hx => hclosed x (Finset.mem_union_left _ hx)) hpB hP
      have hnd : (90 :: B.names).Nodup := by
        refine List.nodup_cons.2 ⟨fun hx => ?_, List.Nodup.sublist (names_bv B) hn1⟩
        exact absurd (hown 90 (List.mem_append_left _ (hnm 90 hx))).1 (by decide)
      refine ⟨by rw [List.map_cons, g1, ← List.map_cons (f := N.ext)]; exact map_nodup (f := N.ext) (fun h => hI.ext h) hnd, ?_, ?_⟩
      · have : ∀ n ∈ (90 :: B.names).map N.ext, ¬ header N C.prims n := by
          rintro n hn hh
          obtain ⟨x, hx, rfl⟩ := List.mem_map.1 hn
          rcases hh with hh | ⟨p, hp, hh⟩
          · have := hI.ext hh
            subst this
            exact absurd (h84 80 hx) (by decide)
          · have := hI.ext hh
            subst this
            rcases List.mem_cons.1 hx with rfl | hx
            · exact absurd (ht.prims 90 hp) (by decide)
            · exact hp (hown x (List.mem_append_left _ (hnm x hx))).2
        intro f hf
        refine this f.name ?_
        rw [List.map_cons, ← g1]
        rcases List.mem_cons.1 hf with rfl | hf
        · exact List.mem_cons_self
        · exact List.mem_cons_of_mem _ (List.mem_map_of_mem hf)
      · intro f hf
        rw [List.map_cons, g1]
        change FnScoped (outer N C.prims (90 :: B.names)) f
        rcases List.mem_cons.1 hf with rfl | hf
        · let T : Var → Prop := fun x => x ∈ 91 :: (localsE e ++ [28, 29, 26])
          have ho : Own T (fun x => x = 79 ∨ x = 84 ∨ x = 80 ∨ x ∈ B.names ∨ C.prims x ≠ none) := by constructor <;> simp [T]
          have hnames : (([(N.tmp 91, threadInf N)] ++ (((localsE e).map fun x => (N.tmp x, val)) ++
              [(N.tmp 28, valPtr), (N.tmp 29, valPtr), (N.tmp 26, valPtr)])).map (·.1)) = (91 :: (localsE e ++ [28, 29, 26])).map N.tmp := by
            simp [Function.comp_def]
          have hle : ∀ x ∈ localsE e, T x := fun x hx => by simp [T, hx]
          obtain ⟨hv1, hv2⟩ := vars_ok (N := N) hI (size := n) h84 ht.prims
          refine ⟨?_, hv1, hv2, ?_⟩
          · refine Eq.mpr (congrArg List.Nodup hnames) (map_nodup (f := N.tmp) (fun h => hI.tmp h) ?_)
            have h6 : ∀ x ∈ localsE e, 93 < x := fun x hx => (hown x (List.mem_append_right _ ((localsE_bv e).subset hx))).1
            rw [List.nodup_cons, List.nodup_append]
            refine ⟨?_, List.Nodup.sublist (localsE_bv e) hn2, by decide, ?_⟩
            · intro hx
              rcases List.mem_append.1 hx with hx | hx
              · exact absurd (h6 91 hx) (by decide)
              · exact absurd hx (by decide)
            · intro x hx y hy hxy
              subst hxy
              have := h6 x hx
              have h7 : x = 28 ∨ x = 29 ∨ x = 26 := by simpa using hy
              rcases h7 with rfl | rfl | rfl <;> exact absurd this (by decide)
          · refine body_in (C := C) (T := T) n (fs := B.names) (fun f hf => List.mem_cons_of_mem _ hf)
              (fun x hx => by rw [hnames]; exact List.mem_map_of_mem hx) ?_
            refine ⟨loadAlloc_in ho, loadLimit_in ho, loadArgs_in ho, initStack_in ho, gcCall_in ho _ _ _ (by simp), ?_⟩
            exact genE_in ho (fun g hg => .inr (.inr (.inr (.inl hg)))) (fun p hp => .inr (.inr (.inr (.inr hp))))
              (fun x hx => hle x (by simpa using hx)) (tail := false) (fun h => by cases h) e hle
              (fun x hx => .inr (hclosed x (Finset.mem_union_right _ hx))) hpe hs
        · exact g2 f hf
    · cases h
  · cases h

theorem forall₂_texts : ∀ {l fs : List CFn}, (∀ F ∈ l, F.ok = true) → List.Forall₂ ReadsFn (l.map fun F => CPrint.text (CPrint.function F)) fs →
    List.Forall₂ (fun F f => ∃ s, Same F.body s ∧ f = {F with body := s}) l fs
  | [], _, _, h => by cases h; exact .nil
  | F :: l, _, hk, h => by
    rw [List.map_cons] at h
    cases h with
    | cons h1 h2 =>
      obtain ⟨s, hs, hr⟩ := CPrint.C62_function_partial F (hk F List.mem_cons_self)
      exact .cons ⟨s, hs, CPrint.C62_reading_unique.1 _ _ _ h1 hr⟩ (forall₂_texts (fun G hG => hk G (List.mem_cons_of_mem _ hG)) h2)

theorem all_ok {prims : Tag → Option Bool} (hN : N.Ok) : ∀ {Q : List CFun} {P : List CFn}, List.Forall₂ (ElF N) Q P →
    (∀ F ∈ Q, good prims F.body) → ∀ G ∈ P, G.ok = true
  | _, _, .nil, _ => by simp
  | _, _, .cons h1 h2, g => by
    intro G hG
    rcases List.mem_cons.1 hG with rfl | hG
    · exact elF_ok hN h1 (g _ List.mem_cons_self)
    · exact all_ok hN h2 (fun F hF => g F (List.mem_cons_of_mem _ hF)) G hG

theorem same_names : ∀ {l fs : List CFn}, List.Forall₂ (fun F f => ∃ s, Same F.body s ∧ f = {F with body := s}) l fs →
    fs.map (·.name) = l.map (·.name) ∧ ∀ f ∈ fs, ∃ F ∈ l, ∃ s, Same F.body s ∧ f = {F with body := s}
  | _, _, .nil => ⟨rfl, by simp⟩
  | _, _, .cons (a := F) (b := f) h1 h2 => by
    obtain ⟨g1, g2⟩ := same_names h2
    refine ⟨?_, fun f' hf => ?_⟩
    · obtain ⟨s, -, rfl⟩ := h1
      rw [List.map_cons, List.map_cons, g1]
    · rcases List.mem_cons.1 hf with rfl | hf
      · exact ⟨F, List.mem_cons_self, h1⟩
      · obtain ⟨F', hF, h⟩ := g2 f' hf
        exact ⟨F', List.mem_cons_of_mem _ hF, h⟩

theorem scoped_same {g : Name → Prop} {l fs : List CFn} (h : List.Forall₂ (fun F f => ∃ s, Same F.body s ∧ f = {F with body := s}) l fs)
    (hl : FileScoped g l) : FileScoped g fs := by
  obtain ⟨h1, h2⟩ := same_names h
  refine ⟨by rw [h1]; exact hl.names, fun f hf => ?_, fun f hf => ?_⟩
  · obtain ⟨F, hF, s, -, rfl⟩ := h2 f hf
    exact hl.outside F hF
  · obtain ⟨F, hF, s, hs, rfl⟩ := h2 f hf
    rw [h1]
    have := hl.fns F hF
    exact ⟨this.temps, this.vars, this.hides, (withinS_same hs).1 this.body⟩

/-! ## Theorems -/

/-- **C65.** However the text of the functions of a C file is read: every temporary used in a function is a parameter or declared in it,
once; every variable or function used is a local variable, a function of the file or declared in the headers; no local variable
hides a function; no two functions have the same name, and none that of a function in the headers.  Missing: `PlainE` is assumed of
the program: the program itself (not its functions) does not end in a call, see C65_result_refuted; and no function is matched on. -/
theorem C65_scope_partial {b : Name} {ps : List (Name × Nat)} {m : NEnv} {B : Defs} {e : Exp} {M : CFun × List CFun}
    (hf : Fits C b ps m (.fn B e)) (hs : SeenE C.cenv (.fn B e)) (hM : compileC C 90 (.fn B e) = some M) (hC : C.result = 93)
    (ht : Tidy C.prims B e) (hpB : PlainB B.names B) (hpe : PlainE B.names false e) {K : CFn × List CFn}
    (hK : genProgram (fileNames b ps m) C 90 (.fn B e) = some K) {fs : List CFn} (hr : List.Forall₂ ReadsFn (functionTexts K) fs) :
    FileScoped (header (fileNames b ps m) C.prims) fs := by
  obtain ⟨hN, hI⟩ := names_of hf.names
  refine scoped_same (forall₂_texts ?_ hr) (program_scoped hI hC ht hpB hpe hK)
  obtain ⟨F, Q, h1, h2, h3⟩ := genProgram_el hf.tags (G := K.1) (P := K.2) hK
  rw [hM] at h1
  cases h1
  exact all_ok hN (.cons h2 h3) (compileC_good hf.tags hf.result hs hf.fits hM)

/-- `f x y` of the example called at the end of the program. -/
def mainTail : Exp := .constr 310 100 [] (.app 300 3 [310, 310])

/-- The configuration of the compiler: results of calls in tail position are in `$result`. -/
def cfgTail : Cfg := { cfgNat with result := 93 }

theorem fits_tail : Fits cfgTail "body".toList [] natNames (.fn defsNat mainTail) where
  names := natNames_ok
  tags := tags_nat
  result := by simp [vOk, tOk, fOk, cfgTail, cfgNat]
  fits := by
    have h := fits_nat.fits
    simp [FitsE, FitsBs, FitsB, defsNat, mainNat, mainTail, vOk, tOk, fOk, cfgTail, cfgNat, maxAllocsE, maxAllocsBs] at h ⊢
    exact h.1

theorem fits_nat93 : Fits cfgTail "body".toList [] natNames (.fn defsNat mainNat) :=
  ⟨natNames_ok, tags_nat, fits_tail.result, fits_nat.fits⟩

theorem seen_tail : SeenE cfgTail.cenv (.fn defsNat mainTail) := by
  simp [SeenE, SeenBs, SeenB, defsNat, mainTail, cfgTail, cfgNat, cenvNat]

theorem compiles_tail : ∃ M, compileC cfgTail 90 (.fn defsNat mainTail) = some M :=
  compileC_total (ar := fun _ => 2) (by simp [OkE, OkB, OkBs, defsNat, mainTail, cenvNat, cfgTail, cfgNat])
    (by simp [FlatB, FlatE, FlatBs, defsNat]) (by simp [FlatE, mainTail])

/-- A call in tail position assigns to `$result`. -/
theorem app_result {fenv : FEnv} {fns : List Var} {loc : Finset Var} {f : Var} {t : Tag} {vs : List Var} {sl : Nat} {c : CS} {m : Nat}
    (h : genE N C fenv fns loc (.app f t vs) sl = some (c, m)) {T V : Name → Prop} (hw : WithinS T V c) : T (N.tmp C.result) := by
  simp only [genE] at h
  split at h
  · split at h
    · next a c' _ hc =>
      cases h
      obtain ⟨-, -, -, hw, -⟩ := hw
      unfold mkCall at hc
      obtain ⟨as, -, rfl⟩ := Option.map_eq_some_iff.1 hc
      exact hw.1 _ rfl
    · cases h
  · cases h

/-- **C65, a disagreement.** The function for the program itself does not declare `$result`, although a call in tail position there
assigns to it: the C file of such a program uses an undeclared name. -/
theorem C65_result_refuted : ∃ (b : Name) (ps : List (Name × Nat)) (m : NEnv) (C : Cfg) (B : Defs) (e : Exp) (K : CFn × List CFn),
    Fits C b ps m (.fn B e) ∧ SeenE C.cenv (.fn B e) ∧ C.result = 93 ∧ Tidy C.prims B e ∧ PlainB B.names B ∧ PlainE B.names true e ∧
    genProgram (fileNames b ps m) C 90 (.fn B e) = some K ∧ (∃ fs, List.Forall₂ ReadsFn (functionTexts K) fs) ∧
    ∀ fs, List.Forall₂ ReadsFn (functionTexts K) fs → ¬ FileScoped (header (fileNames b ps m) C.prims) fs := by
  obtain ⟨M, hM⟩ := compiles_tail
  obtain ⟨K, hK, hr⟩ := C64_readable_partial fits_tail seen_tail hM
  refine ⟨_, _, _, cfgTail, defsNat, mainTail, K, fits_tail, seen_tail, rfl, ?_, by simp [PlainB, PlainE, PlainBs, defsNat, Defs.names],
    by simp [PlainE, mainTail], hK, hr, fun fs hfs hsc => ?_⟩
  · refine ⟨by decide, by decide, ?_, by simp [cfgTail, cfgNat]⟩
    simp [cfgTail, cfgNat, defsNat, mainTail, Exp.bv, Defs.bv, Brs.bv]
  · obtain ⟨hN, hI⟩ := names_of fits_tail.names
    obtain ⟨F, Q, h1, h2, h3⟩ := genProgram_el fits_tail.tags (G := K.1) (P := K.2) hK
    rw [hM] at h1
    cases h1
    have h4 := forall₂_texts (all_ok hN (.cons h2 h3) (compileC_good fits_tail.tags fits_tail.result seen_tail fits_tail.fits hM)) hfs
    cases h4 with
    | cons h5 h6 =>
      obtain ⟨s, hs, rfl⟩ := h5
      have hb := (withinS_same hs).2 (hsc.fns _ List.mem_cons_self).body
      simp only [genProgram] at hK
      split at hK
      · split at hK
        · next P s' n hP hs' =>
          cases hK
          obtain ⟨-, -, -, -, -, hw⟩ := hb
          simp only [mainTail] at hs'
          rw [genE] at hs'
          split at hs'
          · next h7 h8 =>
            cases hs'
            have := app_result h8 hw.2
            simp [localsE, mainTail, cfgTail] at this
            rcases this with h | h | h | h | h <;> exact absurd (hI.tmp h) (by decide)
          · cases hs'
        · cases hK
      · cases hK

/-- The names in the C file of the example are in order. -/
example : ∃ K fs, genProgram (fileNames "body".toList [] natNames) cfgTail 90 (.fn defsNat mainNat) = some K ∧
    List.Forall₂ ReadsFn (functionTexts K) fs ∧ FileScoped (header (fileNames "body".toList [] natNames) cfgTail.prims) fs := by
  obtain ⟨M, hM⟩ : ∃ M, compileC cfgTail 90 (.fn defsNat mainNat) = some M :=
    compileC_total (ar := fun _ => 2) ok_nat (by simp [FlatB, FlatE, FlatBs, defsNat]) (by simp [FlatE, mainNat])
  obtain ⟨K, hK, fs, hr⟩ := C64_readable_partial fits_nat93 seen_nat hM
  refine ⟨K, fs, hK, hr, C65_scope_partial fits_nat93 seen_nat hM rfl ?_ (by simp [PlainB, PlainE, PlainBs, defsNat, Defs.names])
    (by simp [PlainE, mainNat]) hK hr⟩
  refine ⟨by decide, by decide, ?_, by simp [cfgTail, cfgNat]⟩
  simp [cfgTail, cfgNat, defsNat, mainNat, Exp.bv, Defs.bv, Brs.bv]

end CGen.Text
