import Verif.Glue.Lemmas

/-!
# C69: the print functions of the glue code print the value
-/

namespace Glue

open Ctor (W WMem Str Cnstr getTag getArgs namesArray readName specOrdinal boxedCount)

/-! ## Declarations -/

theorem has_unique {D : Decls} (hn : (D.map Decl.ind).Nodup) {i : Ind} {d d' : Decl} (h : D.Has i d) (h' : D.Has i d') : d = d' := by
  obtain ⟨h1, rfl⟩ := h
  obtain ⟨h2, h3⟩ := h'
  exact List.inj_on_of_nodup_map hn h1 h2 h3.symm

theorem name_of {D : Decls} (hn : (D.map Decl.ind).Nodup) {i : Ind} {d : Decl} (h : D.Has i d) {c : Nat} {n : Str} {as : List ATy}
    (hc : d.ctors[c]? = some (n, as)) : D.name i c = n := by
  have : D.find? (fun d => d.ind = i) = some d := by
    cases hf : D.find? (fun d => d.ind = i) with
    | none => rw [List.find?_eq_none] at hf; exact absurd (by simp [h.2]) (hf d h.1)
    | some d' =>
      have h1 := List.mem_of_find?_eq_some hf
      have h2 := List.find?_some hf
      rw [has_unique hn h ⟨h1, by simpa using h2⟩]
  simp [Decls.name, this, hc]

theorem same_cnstrs {t : TyInfo} {d : Decl} (h : Same t d) : t.cnstrs = d.cnstrs := by
  apply List.ext_getElem?
  intro c
  rw [TyInfo.cnstrs, Decl.cnstrs, List.getElem?_map, List.getElem?_map]
  by_cases hc : c < t.ctors.length
  · have hc' : c < d.ctors.length := by rw [← h.length]; exact hc
    have e1 : t.ctors[c]? = some t.ctors[c] := List.getElem?_eq_getElem hc
    have e2 : d.ctors[c]? = some (d.ctors[c].1, d.ctors[c].2) := List.getElem?_eq_getElem hc'
    obtain ⟨h1, h2, -⟩ := h.ctor c _ _ _ e1 e2
    rw [e1, e2, Option.map_some, Option.map_some, h1, h2]
  · have hc' : d.ctors.length ≤ c := by rw [← h.length]; omega
    rw [List.getElem?_eq_none (by omega : t.ctors.length ≤ c), List.getElem?_eq_none hc']
    rfl

theorem maxArity_le {cs : List CBody} {c : CBody} (h : c ∈ cs) : c.arity ≤ maxArity cs := by
  induction cs with
  | nil => simp at h
  | cons x cs ih =>
    rcases List.mem_cons.1 h with rfl | h
    · exact Nat.le_max_left _ _
    · exact le_trans (ih h) (Nat.le_max_right _ _)

/-! ## Running the calls -/

theorem runStmts_cons {call : Nat → List Nat → W → Option Str} {m : WMem} {fs : List Nat} {args : W} {s : PStmt} {ss : List PStmt} {a b : Str}
    (h1 : runStmt call m fs args s = some a) (h2 : runStmts call m fs args ss = some b) : runStmts call m fs args (s :: ss) = some (a ++ b) := by
  rw [runStmts, h1, h2]

theorem calls_text {D : Decls} {tys : List TyInfo} {m : WMem} {params : List Str} {fs : List Nat} {args : W} (vs : List V) (ds : List Dis) (i : Nat) (hl : ds.length = vs.length) (hne : vs ≠ [])
    (h : ∀ (k : Nat) v d, vs[k]? = some v → ds[k]? = some d →
      ∃ n, ∀ f, n ≤ f → runStmt (runPrinter tys m f) m fs args (recPrintCall tys params (i + k) d) = some (v.text D)) :
    ∃ n s, textArgs D vs = ' ' :: s ∧ ∀ f, n ≤ f → runStmts (runPrinter tys m f) m fs args (recPrintCalls tys params i ds) = some s := by
  induction vs generalizing ds i with
  | nil => exact absurd rfl hne
  | cons v vs ih =>
    cases ds with
    | nil => simp at hl
    | cons d ds =>
      obtain ⟨n1, h1⟩ := h 0 v d rfl rfl
      cases vs with
      | nil =>
        obtain rfl : ds = [] := List.eq_nil_of_length_eq_zero (by simpa using hl)
        refine ⟨n1, v.text D, by simp [textArgs], fun f hf => ?_⟩
        have := runStmts_cons (ss := []) (h1 f hf) rfl
        rwa [List.append_nil] at this
      | cons v' vs =>
        obtain ⟨n2, s, h2, h3⟩ := ih ds (i + 1) (by simpa using hl) (by simp) (fun k v d hv hd => by
          have := h (k + 1) v d hv hd
          rwa [show i + (k + 1) = i + 1 + k by omega] at this)
        refine ⟨max n1 n2, v.text D ++ ' ' :: s, ?_, fun f hf => ?_⟩
        · rw [textArgs, h2]; simp
        · cases ds with
          | nil => simp at hl
          | cons d' ds =>
            rw [recPrintCalls]
            · exact runStmts_cons (h1 f (le_trans (Nat.le_max_left _ _) hf)) (runStmts_cons (a := [' ']) rfl (h3 f (le_trans (Nat.le_max_right _ _) hf)))
            · simp

theorem forall2_get {α β : Type} {R : α → β → Prop} {l : List α} {l' : List β} (h : List.Forall₂ R l l') {k : Nat} {a : α} (ha : l[k]? = some a) :
    ∃ b, l'[k]? = some b ∧ R a b := by
  induction h generalizing k with
  | nil => simp at ha
  | cons h1 _ ih =>
    cases k with
    | zero => simp at ha; subst ha; exact ⟨_, rfl, h1⟩
    | succ k => exact ih ha

/-- The printers passed on are those of the types. -/
theorem passed {tys : List TyInfo} {ρ : List Ind} {fs : List Nat} (hf : List.Forall₂ (fun i q => tagOf tys i = some q) ρ fs) {sp : List Sp} {ps : List PArg}
    (h : List.Forall₂ (SpArg tys) sp ps) {ρ' : List Ind} (hρ : sp.mapM (Sp.val ρ) = some ρ') :
    ∃ fs', ps.mapM (PArg.val fs) = some fs' ∧ List.Forall₂ (fun i q => tagOf tys i = some q) ρ' fs' := by
  induction h generalizing ρ' with
  | nil =>
    simp at hρ
    subst hρ
    exact ⟨[], rfl, .nil⟩
  | @cons s p sp ps h1 h2 ih =>
    rw [List.mapM_cons] at hρ
    obtain ⟨i, hi, hρ⟩ := Option.bind_eq_some_iff.1 hρ
    obtain ⟨ρ₁, h3, hρ⟩ := Option.bind_eq_some_iff.1 hρ
    cases hρ
    obtain ⟨fs', h4, h5⟩ := ih h3
    rw [List.mapM_cons]
    cases s with
    | param k =>
      cases p with
      | param k' =>
        cases h1
        obtain ⟨q, h6, h7⟩ := forall2_get hf hi
        exact ⟨q :: fs', by simp only [PArg.val, h6, h4]; rfl, .cons h7 h5⟩
      | fn t => exact absurd h1 id
    | ind j =>
      cases p with
      | param k' => exact absurd h1 id
      | fn t =>
        cases hi
        exact ⟨t :: fs', by simp only [PArg.val, h4]; rfl, .cons h1.1 h5⟩

theorem spDis_ind {params : List Str} {s : Sp} {i : Ind} {sp : List Sp} (h : s.toATy = .ind i sp) : s = .ind i ∧ sp = [] := by
  cases s with
  | param k => cases h
  | ind j => cases h; exact ⟨rfl, rfl⟩

/-! ## The theorem -/

/-- What is proved by induction: for values of inductive types what their printers print, for arguments what is printed for them. -/
def Prints (D : Decls) (tys : List TyInfo) (m : WMem) (v : V) : Sum (Ind × List Ind) (ATy × List Ind) → Prop
  | .inl (i, ρ) => ∀ w, Rep D m v w → ∀ q fs, tagOf tys i = some q → List.Forall₂ (fun i q => tagOf tys i = some q) ρ fs →
      ∃ n, ∀ f, n ≤ f → runPrinter tys m f q fs w = some (v.text D)
  | .inr (a, ρ) => ∀ (args : W) (k : Nat), Rep D m v (m (args + 8 * BitVec.ofNat 64 k)) → ∀ params prev d fs, Fits params prev d a → params.Nodup → a.Ok D params.length →
      (∀ s, some s ∈ prev → s.Ok D params.length) → List.Forall₂ (fun i q => tagOf tys i = some q) ρ fs →
      ∃ n, ∀ f, n ≤ f → runStmt (runPrinter tys m f) m fs args (recPrintCall tys params k d) = some (v.text D)

theorem toATy_ok {D : Decls} {np : Nat} {s : Sp} (h : s.toATy.Ok D np) : s.Ok D np := by
  cases s with
  | param k => exact h
  | ind i =>
    obtain ⟨⟨d, h1, h2, h3⟩, -⟩ := h
    exact ⟨d, h1, h2, List.eq_nil_of_length_eq_zero h3.symm⟩

/-- The calls of printers of inductive types. -/
theorem ind_call {D : Decls} {tys : List TyInfo} {m : WMem} (hs : SameAll tys D) (hD : D.Ok) {v : V} {i : Ind} {ρ ρ' : List Ind} {sp ix : List Sp}
    (hρ : sp.mapM (Sp.val ρ) = some ρ') (ih : Prints D tys m v (.inl (i, ρ'))) {args : W} {k : Nat} (hv : Rep D m v (m (args + 8 * BitVec.ofNat 64 k)))
    {params : List Str} (hn : params.Nodup) (hok : (ATy.ind i sp).Ok D params.length) (hix : ∀ s ∈ ix, s.Ok D params.length) {fs : List Nat}
    (hf : List.Forall₂ (fun i q => tagOf tys i = some q) ρ fs) :
    ∃ n, ∀ f, n ≤ f → runStmt (runPrinter tys m f) m fs args (printInd tys params k i ((sp ++ ix).map (spDis params))) = some (v.text D) := by
  obtain ⟨⟨d, hd, hp, hl⟩, hsp⟩ := hok
  obtain ⟨q, t, e1, e2, e3, e4⟩ := tag_of hs hD.inds hd
  have e5 : t.isProp = false := e4.isProp.trans hp
  obtain ⟨ps, h1, h2⟩ := spine_args hs hD hn (sp ++ ix) (fun s hs => by
    rcases List.mem_append.1 hs with h | h; exacts [hsp s h, hix s h])
  have h3 : List.Forall₂ (SpArg tys) sp (ps.take t.params.length) := by
    have := List.forall₂_take sp.length h2
    rwa [List.take_left, show sp.length = t.params.length by rw [e4.params, hl]] at this
  obtain ⟨fs', h4, h5⟩ := passed hf h3 hρ
  obtain ⟨n, h6⟩ := ih _ hv q fs' e1 h5
  refine ⟨n, fun f hf => ?_⟩
  simp only [printInd, e1, e2, e5, h1, printer_of e2 e5, runStmt, Bool.false_eq_true, if_false]
  rw [h4]
  exact h6 f hf

theorem prints {D : Decls} {tys : List TyInfo} {m : WMem} (hs : SameAll tys D) (hD : D.Ok) {v : V} {x : Sum (Ind × List Ind) (ATy × List Ind)} (h : HasTy D v x) :
    Prints D tys m v x := by
  induction h with
  | @con i ρ d c nm as vs hd hp hρ hc hlen hargs ih =>
    intro w hw q fs hq hfs
    obtain ⟨q', t, e1, e2, e3, e4⟩ := tag_of hs hD.inds hd
    rw [hq] at e1
    cases e1
    have e5 : t.isProp = false := e4.isProp.trans hp
    have hcl : c < d.ctors.length := (List.getElem?_eq_some_iff.1 hc).1
    have hct : c < t.ctors.length := by rw [e4.length]; exact hcl
    have e6 : t.ctors[c]? = some t.ctors[c] := List.getElem?_eq_getElem hct
    obtain ⟨b1, b2, u, b3, b4⟩ := e4.ctor c _ _ _ e6 hc
    have e7 := same_cnstrs e4
    have hcn : d.cnstrs[c]? = some ⟨nm, as.length⟩ := by rw [Decl.cnstrs, List.getElem?_map, hc]; rfl
    have hfew := hD.few d hd.1
    have hfew' : d.cnstrs.length ≤ 2 ^ 31 := by rw [Decl.cnstrs, List.length_map]; omega
    obtain ⟨n1, n2⟩ := hD.names d hd.1 _ (List.mem_of_getElem? hc)
    have hmod : (BitVec.ofNat 64 c).toNat % 2 ^ 32 = c := by
      rw [BitVec.toNat_ofNat, Nat.mod_eq_of_lt (by omega : c < 2 ^ 64), Nat.mod_eq_of_lt (by omega)]
    have hname : printName t c = some nm := by
      rw [printName, if_pos hct, e7, Ctor.C27_names d.cnstrs c _ hcn n2, printf, if_neg n1]
    have hfl : ¬ fs.length ≠ t.params.length := by
      rw [not_not, ← hfs.length_eq, hρ, e4.params]
    have htext := name_of hD.inds hd hc
    cases hw with
    | @unboxed _ _ d' hd' =>
      cases has_unique hD.inds hd hd'
      have h0 : as.length = 0 := by rw [← hlen]; rfl
      have hg := Ctor.getTag_unboxed d.cnstrs c _ hcn h0 hfew' m
      rw [Nat.shiftLeft_eq, show specOrdinal d.cnstrs c * 2 ^ 1 = 2 * specOrdinal d.cnstrs c by omega] at hg
      refine ⟨1, fun f hf => ?_⟩
      obtain ⟨f, rfl⟩ : ∃ f', f = f' + 1 := ⟨f - 1, by omega⟩
      unfold runPrinter
      simp only [printer_of e2 e5, e2]
      rw [if_neg hfl, e7, hg]
      simp only [hmod, e6, hname, b2, h0, if_true, V.text, htext, ite_self]
    | @boxed _ _ _ d' _ hne hd' hev hm hrep =>
      cases has_unique hD.inds hd hd'
      have h0 : as.length ≠ 0 := by rw [← hlen]; exact fun h => hne (List.eq_nil_of_length_eq_zero h)
      have hg := Ctor.getTag_boxed d.cnstrs c _ hcn h0 (hD.boxed d hd.1) hfew' m w hev vs.length
        (by rw [hm, Nat.shiftLeft_eq])
      have hmax : maxArity t.ctors ≠ 0 := by
        have := maxArity_le (List.getElem_mem hct)
        omega
      obtain ⟨ctx', c1, c2⟩ := dissect_params d.ind b3 [] [.ind d.ind] ⟨fun n s hn => by simp at hn, fun k hk => by simp at hk, rfl⟩
      obtain ⟨l1, l2⟩ := dissect_args b4 c2 (P := fun s => s.Ok D d.params.length) (fun s hs => by simp at hs)
        (fun s hs => toATy_ok (hD.args d hd.1 _ (List.mem_of_getElem? hc) _ hs))
      obtain ⟨n, s, t1, t2⟩ := calls_text (D := D) (tys := tys) (m := m) (params := d.params) (fs := fs) (args := w) vs (dissectTypes u [] ctx') 0 (by rw [l1, hlen]) hne
        (fun k v dd hv hdd => by
          have hk : k < as.length := by rw [← hlen]; exact (List.getElem?_eq_some_iff.1 hv).1
          have ha : as[k]? = some as[k] := List.getElem?_eq_getElem hk
          obtain ⟨prev', f1, f2⟩ := l2 k dd _ hdd ha
          rw [Nat.zero_add]
          exact ih k v _ hv ha w k (hrep k v hv) d.params prev' dd fs f1 (hD.params d hd.1)
            (hD.args d hd.1 _ (List.mem_of_getElem? hc) _ (List.getElem_mem hk)) f2 hfs)
      refine ⟨n + 1, fun f hf => ?_⟩
      obtain ⟨f, rfl⟩ : ∃ f', f = f' + 1 := ⟨f - 1, by omega⟩
      have hcase : caseOf tys t t.ctors[c] = recPrintCalls tys d.params 0 (dissectTypes u [] ctx') := by
        rw [caseOf, e4.params, e4.ind, c1]
      unfold runPrinter
      simp only [printer_of e2 e5, e2]
      rw [if_neg hfl, e7, hg]
      simp only [hmod]
      rw [if_neg hmax, e6]
      simp only
      rw [if_neg (by rw [b2]; exact h0), hname, hcase]
      simp only [getArgs]
      rw [t2 f (by omega)]
      obtain ⟨v, vs', rfl⟩ : ∃ v vs', vs = v :: vs' := List.exists_cons_of_ne_nil hne
      simp only [V.text, htext, lparen, rparen, space]
      rw [t1]
      simp
  | @param k ρ v i hi h ih =>
    intro args j hv params prev d fs hfit hn hok hprev hfs
    obtain ⟨q, h1, h2⟩ := forall2_get hfs hi
    obtain ⟨n, h3⟩ := ih _ hv q [] h2 .nil
    generalize ha : ATy.param k = a at hfit
    cases hfit with
    | @simple s =>
      cases s with
      | param k' =>
        cases ha
        refine ⟨n, fun f hf => ?_⟩
        simp only [spDis, recPrintCall]
        rw [findParam_get hn hok]
        simp only [runStmt, h1]
        exact h3 f hf
      | ind i => cases ha
    | _ => cases ha
  | @ind i sp ρ ρ' v hρ h ih =>
    intro args j hv params prev d fs hfit hn hok hprev hfs
    generalize ha : ATy.ind i sp = a at hfit
    cases hfit with
    | @simple s =>
      obtain ⟨rfl, rfl⟩ := spDis_ind (params := params) ha.symm
      exact ind_call (ix := []) hs hD hρ ih hv hn hok (by simp) hfs
    | @app i' sp' ix hix =>
      cases ha
      exact ind_call hs hD hρ ih hv hn hok (fun s hs => hprev s (hix s hs)) hfs
    | _ => cases ha
  | fn =>
    intro args j hv params prev d fs hfit hn hok hprev hfs
    generalize ha : ATy.fn = a at hfit
    cases hfit with
    | @simple s => cases s <;> cases ha
    | fn => exact ⟨0, fun f _ => by simp only [recPrintCall, runStmt, V.text]; decide⟩
    | _ => cases ha
  | ty =>
    intro args j hv params prev d fs hfit hn hok hprev hfs
    generalize ha : ATy.sort = a at hfit
    cases hfit with
    | @simple s => cases s <;> cases ha
    | sort => exact ⟨0, fun f _ => by simp only [recPrintCall, runStmt, V.text]; decide⟩
    | _ => cases ha
  | @prf i ρ =>
    intro args j hv params prev d fs hfit hn hok hprev hfs
    obtain ⟨dd, hd, hp⟩ := hok
    obtain ⟨q, t, e1, e2, e3, e4⟩ := tag_of hs hD.inds hd
    have key : ∀ sp f, runStmt (runPrinter tys m f) m fs args (printInd tys params j i sp) = some (V.prf.text D) := fun sp f => by
      simp only [printInd, e1, e2, e4.isProp.trans hp, if_true, runStmt, V.text]
      decide
    generalize ha : ATy.prop i = a at hfit
    cases hfit with
    | @simple s => cases s <;> cases ha
    | prop => cases ha; exact ⟨0, fun f _ => key _ f⟩
    | propApp => cases ha; exact ⟨0, fun f _ => key _ f⟩
    | _ => cases ha

/-- **C69, partial.** `print_T(v, printers)` prints the value: for all declarations of types that are alone in their blocks, with arguments that are parameters, functions, universes,
propositions or inductive types applied to parameters and to types without parameters, all values of these types and all memories that represent them. Missing: mutual blocks,
arguments like `list (list nat)`, and `let`s in constructors, for which the claim fails (see below). -/
theorem C69_print_partial {D : Decls} {tys : List TyInfo} {m : WMem} (hs : SameAll tys D) (hD : D.Ok) {v : V} {i : Ind} {ρ : List Ind} (h : HasTy D v (.inl (i, ρ)))
    {w : W} (hw : Rep D m v w) {q : Nat} {fs : List Nat} (hq : tagOf tys i = some q) (hfs : List.Forall₂ (fun i q => tagOf tys i = some q) ρ fs) :
    ∃ n, ∀ f, n ≤ f → runPrinter tys m f q fs w = some (v.text D) :=
  prints hs hD h w hw q fs hq hfs

/-! ## The statement is about real types -/

/-- `nat`, `list`, and `vec A n`: a vector, indexed by its length. -/
def declsX : Decls :=
  [⟨(0, 0), false, [], [(['O'], []), (['S'], [.ind (0, 0) []])]⟩,
   ⟨(1, 0), false, [['A']], [("nil".toList, []), ("cons".toList, [.param 0, .ind (1, 0) [.param 0]])]⟩,
   ⟨(2, 0), false, [['A']], [("vnil".toList, []), ("vcons".toList, [.ind (0, 0) [], .param 0, .ind (2, 0) [.param 0]])]⟩]

/-- The same as the generator gets them. -/
def tysX : List TyInfo :=
  [⟨(0, 0), false, [], [⟨['O'], 0, .rel 0⟩, ⟨['S'], 1, .prod none (.rel 0) (.rel 1)⟩]⟩,
   ⟨(1, 0), false, [['A']], [⟨"nil".toList, 0, .prod (some ['A']) .sort (.app (.rel 1) [.rel 0])⟩,
     ⟨"cons".toList, 2, .prod (some ['A']) .sort (.prod none (.rel 0) (.prod none (.app (.rel 2) [.rel 1]) (.app (.rel 3) [.rel 2])))⟩]⟩,
   ⟨(2, 0), false, [['A']], [⟨"vnil".toList, 0, .prod (some ['A']) .sort (.app (.rel 1) [.rel 0, .other])⟩,
     ⟨"vcons".toList, 3, .prod (some ['A']) .sort (.prod (some ['n']) (.ind (0, 0)) (.prod none (.rel 1) (.prod none (.app (.rel 3) [.rel 2, .rel 1]) (.app (.rel 4) [.rel 3, .other]))))⟩]⟩]

theorem tysX_same : SameAll tysX declsX := by
  refine ⟨rfl, fun k t d ht hd => ?_⟩
  match k, ht, hd with
  | 0, ht, hd =>
    cases ht; cases hd
    refine ⟨rfl, rfl, rfl, rfl, fun c b n as hb hn => ?_⟩
    match c, hb, hn with
    | 0, hb, hn => cases hb; cases hn; exact ⟨rfl, rfl, _, .nil, .nil (by simp)⟩
    | 1, hb, hn =>
      cases hb; cases hn
      exact ⟨rfl, rfl, _, .nil, .cons (o := none) (.simple (s := .ind (0, 0)) (.inr ⟨rfl, rfl⟩)) (by simp) (.nil (by simp))⟩
    | c + 2, hb, _ => simp at hb
  | 1, ht, hd =>
    cases ht; cases hd
    refine ⟨rfl, rfl, rfl, rfl, fun c b n as hb hn => ?_⟩
    match c, hb, hn with
    | 0, hb, hn => cases hb; cases hn; exact ⟨rfl, rfl, _, .cons .nil, .nil (by simp)⟩
    | 1, hb, hn =>
      cases hb; cases hn
      refine ⟨rfl, rfl, _, .cons .nil, .cons (o := none) (.simple (s := .param 0) ⟨by decide, rfl⟩) (by simp)
        (.cons (o := none) (.app (sp := [.param 0]) (ix := []) (.inr ⟨rfl, rfl⟩) rfl ?_ (by simp)) (by simp) (.nil (by simp)))⟩
      intro k s t hs ht
      match k, hs, ht with
      | 0, hs, ht => cases hs; cases ht; exact ⟨by decide, rfl⟩
      | k + 1, hs, _ => simp at hs
    | c + 2, hb, _ => simp at hb
  | 2, ht, hd =>
    cases ht; cases hd
    refine ⟨rfl, rfl, rfl, rfl, fun c b n as hb hn => ?_⟩
    match c, hb, hn with
    | 0, hb, hn => cases hb; cases hn; exact ⟨rfl, rfl, _, .cons .nil, .nil (by simp)⟩
    | 1, hb, hn =>
      cases hb; cases hn
      refine ⟨rfl, rfl, _, .cons .nil, .cons (o := some (.ind (0, 0))) (.simple (s := .ind (0, 0)) (.inl rfl)) (fun s hs => by cases hs; exact ⟨rfl, .inl rfl⟩)
        (.cons (o := none) (.simple (s := .param 0) ⟨by decide, rfl⟩) (by simp)
        (.cons (o := none) (.app (sp := [.param 0]) (ix := [.ind (0, 0)]) (.inr ⟨rfl, rfl⟩) rfl ?_ ?_) (by simp) (.nil (by simp))))⟩
      · intro k s t hs ht
        match k, hs, ht with
        | 0, hs, ht => cases hs; cases ht; exact ⟨by decide, rfl⟩
        | k + 1, hs, _ => simp at hs
      · intro k s t hs ht
        match k, hs, ht with
        | 0, hs, ht => cases hs; cases ht; exact ⟨1, rfl, rfl⟩
        | k + 1, hs, _ => simp at hs
    | c + 2, hb, _ => simp at hb
  | k + 3, ht, _ => simp [tysX] at ht

theorem declsX_ok : declsX.Ok := by
  have hnat : declsX.Has (0, 0) _ := ⟨List.mem_cons_self, rfl⟩
  have hlist : declsX.Has (1, 0) _ := ⟨List.mem_cons_of_mem _ List.mem_cons_self, rfl⟩
  have hvec : declsX.Has (2, 0) _ := ⟨List.mem_cons_of_mem _ (List.mem_cons_of_mem _ List.mem_cons_self), rfl⟩
  have hall : ∀ {P : Decl → Prop}, (P _ ∧ P _ ∧ P _) → ∀ d ∈ declsX, P d := fun {P} h d hd => by
    rcases List.mem_cons.1 hd with rfl | hd
    · exact h.1
    rcases List.mem_cons.1 hd with rfl | hd
    · exact h.2.1
    rcases List.mem_cons.1 hd with rfl | hd
    · exact h.2.2
    · simp at hd
  refine ⟨by decide, hall (P := fun d => d.params.Nodup) (by decide), ?_, ?_, hall (P := fun d => d.ctors.length ≤ 2 ^ 30) (by decide),
    hall (P := fun d => boxedCount d.cnstrs ≤ 256) (by decide)⟩
  · refine hall (P := fun d => ∀ c ∈ d.ctors, ∀ a ∈ c.2, a.Ok declsX d.params.length) ⟨?_, ?_, ?_⟩
    · intro c hc a ha
      simp at hc
      rcases hc with rfl | rfl
      · simp at ha
      · simp at ha
        subst ha
        exact ⟨⟨_, hnat, rfl, rfl⟩, by simp⟩
    · intro c hc a ha
      simp at hc
      rcases hc with rfl | rfl
      · simp at ha
      · simp at ha
        rcases ha with rfl | rfl
        · exact (by decide : 0 < 1)
        · exact ⟨⟨_, hlist, rfl, rfl⟩, fun s hs => by simp at hs; subst hs; exact (by decide : 0 < 1)⟩
    · intro c hc a ha
      simp at hc
      rcases hc with rfl | rfl
      · simp at ha
      · simp at ha
        rcases ha with rfl | rfl | rfl
        · exact ⟨⟨_, hnat, rfl, rfl⟩, by simp⟩
        · exact (by decide : 0 < 1)
        · exact ⟨⟨_, hvec, rfl, rfl⟩, fun s hs => by simp at hs; subst hs; exact (by decide : 0 < 1)⟩
  · refine hall (P := fun d => ∀ c ∈ d.ctors, '%' ∉ c.1 ∧ Char.ofNat 0 ∉ c.1) ⟨?_, ?_, ?_⟩ <;> decide

/-- The vector of `S O`, as a value of `vec nat 1`. -/
def vecX : V := .con (2, 0) 1 [.con (0, 0) 0 [], .con (0, 0) 1 [.con (0, 0) 0 []], .con (2, 0) 0 []]

/-- A memory with it, at address 8. -/
def memX : WMem := fun a => if a = 0 then 3072 else if a = 8 then 1 else if a = 16 then 40 else if a = 24 then 1 else if a = 32 then 1024 else if a = 40 then 1 else 0

theorem vecX_text : vecX.text declsX = "(vcons O (S O) vnil)".toList := by
  simp [vecX, V.text, textArgs, Decls.name, declsX]

/-- It is a vector of numbers, and it is printed. -/
example : HasTy declsX vecX (.inl ((2, 0), [(0, 0)])) ∧ Rep declsX memX vecX 8 ∧
    ∃ n, ∀ f, n ≤ f → runPrinter tysX memX f 2 [0] 8 = some "(vcons O (S O) vnil)".toList := by
  have hnat : declsX.Has (0, 0) _ := ⟨List.mem_cons_self, rfl⟩
  have hvec : declsX.Has (2, 0) _ := ⟨List.mem_cons_of_mem _ (List.mem_cons_of_mem _ List.mem_cons_self), rfl⟩
  have hO : HasTy declsX (.con (0, 0) 0 []) (.inl ((0, 0), [])) := .con hnat rfl rfl rfl rfl (by simp)
  have hS : HasTy declsX (.con (0, 0) 1 [.con (0, 0) 0 []]) (.inl ((0, 0), [])) := .con hnat rfl rfl rfl rfl fun k v a hv ha => by
    match k, hv, ha with
    | 0, hv, ha => cases hv; cases ha; exact .ind rfl hO
    | k + 1, hv, _ => simp at hv
  have h1 : HasTy declsX vecX (.inl ((2, 0), [(0, 0)])) := .con hvec rfl rfl rfl rfl fun k v a hv ha => by
    match k, hv, ha with
    | 0, hv, ha => cases hv; cases ha; exact .ind rfl hO
    | 1, hv, ha => cases hv; cases ha; exact .param rfl hS
    | 2, hv, ha => cases hv; cases ha; exact .ind rfl (.con hvec rfl rfl rfl rfl (by simp))
    | k + 3, hv, _ => simp at hv
  have rO : Rep declsX memX (.con (0, 0) 0 []) 1 := .unboxed hnat
  have rS : Rep declsX memX (.con (0, 0) 1 [.con (0, 0) 0 []]) 40 := .boxed (by simp) hnat (by decide) (by decide) fun k v hv => by
    match k, hv with
    | 0, hv => cases hv; exact rO
    | k + 1, hv => simp at hv
  have h2 : Rep declsX memX vecX 8 := .boxed (by simp) hvec (by decide) (by decide) fun k v hv => by
    match k, hv with
    | 0, hv => cases hv; exact rO
    | 1, hv => cases hv; exact rS
    | 2, hv => cases hv; exact .unboxed hvec
    | k + 3, hv => simp at hv
  refine ⟨h1, h2, ?_⟩
  rw [← vecX_text]
  exact C69_print_partial tysX_same declsX_ok h1 h2 rfl (.cons rfl .nil)

/-! ## What is printed wrongly -/

/-- `tree := node (f : forest)` with `forest := fnil | fcons (t : tree) (f : forest)`, as MetaRocq gives them: the last type of the block is the innermost variable. -/
def tysM : List TyInfo :=
  [⟨(0, 0), false, [], [⟨"node".toList, 1, .prod none (.rel 0) (.rel 2)⟩]⟩,
   ⟨(0, 1), false, [], [⟨"fnil".toList, 0, .rel 0⟩, ⟨"fcons".toList, 2, .prod none (.rel 1) (.prod none (.rel 1) (.rel 2))⟩]⟩]

/-- The declarations of the block. -/
def declsM : Decls :=
  [⟨(0, 0), false, [], [("node".toList, [.ind (0, 1) []])]⟩,
   ⟨(0, 1), false, [], [("fnil".toList, []), ("fcons".toList, [.ind (0, 0) [], .ind (0, 1) []])]⟩]

/-- What `print_tree` does. -/
theorem tree_run (m : WMem) (f : Nat) (w : W) : runPrinter tysM m (f + 1) 0 [] w =
    if (Ctor.getBoxedOrdinal m w).toNat % 2 ^ 32 = 0 then (runPrinter tysM m f 0 [] (m w)).map (fun s => "(node ".toList ++ s ++ [')']) else some [] := by
  have h1 : printerOf tysM 0 ≠ none := by decide
  have h2 : tysM[0]? = some ⟨(0, 0), false, [], [⟨"node".toList, 1, .prod none (.rel 0) (.rel 2)⟩]⟩ := rfl
  have h3 : caseOf tysM ⟨(0, 0), false, [], [⟨"node".toList, 1, .prod none (.rel 0) (.rel 2)⟩]⟩ ⟨"node".toList, 1, .prod none (.rel 0) (.rel 2)⟩ = [.call 0 0 []] := by rfl
  have h4 : printName ⟨(0, 0), false, [], [⟨"node".toList, 1, .prod none (.rel 0) (.rel 2)⟩]⟩ 0 = some "node".toList := by decide +kernel
  obtain ⟨p, hp⟩ := Option.ne_none_iff_exists'.1 h1
  rw [runPrinter]
  simp only [hp, h2]
  have h5 : Ctor.getTag (TyInfo.cnstrs ⟨(0, 0), false, [], [⟨"node".toList, 1, .prod none (.rel 0) (.rel 2)⟩]⟩) m w = some (Ctor.getBoxedOrdinal m w) := rfl
  simp only [h5, List.length_nil, ne_eq, not_true, if_false, maxArity]
  by_cases hg : (Ctor.getBoxedOrdinal m w).toNat % 2 ^ 32 = 0
  · simp only [hg, if_true, h4, h3, List.getElem?_cons_zero]
    simp only [runStmts, runStmt, List.mapM_nil, Ctor.getArgs, pure]
    rw [show w + 8 * BitVec.ofNat 64 0 = w by simp]
    cases runPrinter tysM m f 0 [] (m w) <;> simp [lparen, rparen, space]
  · obtain ⟨k, hk⟩ := Nat.exists_eq_succ_of_ne_zero hg
    simp only [hk, List.getElem?_cons_succ, List.getElem?_nil, Nat.succ_ne_zero, if_false]
    simp

/-- **C69, refuted for mutual types.** For `node fnil`, `print_tree` calls itself on the forest: whatever the memory is, the output is not the value. -/
theorem C69_mutual_refuted : ∃ v, HasTy declsM v (.inl ((0, 0), [])) ∧ v.text declsM = "(node fnil)".toList ∧
    ∀ (m : WMem) w, Rep declsM m v w → ∀ f, runPrinter tysM m f 0 [] w ≠ some (v.text declsM) := by
  have hT : declsM.Has (0, 0) _ := ⟨List.mem_cons_self, rfl⟩
  have hF : declsM.Has (0, 1) _ := ⟨List.mem_cons_of_mem _ List.mem_cons_self, rfl⟩
  refine ⟨.con (0, 0) 0 [.con (0, 1) 0 []], .con hT rfl rfl rfl rfl fun k v a hv ha => ?_, by simp [V.text, textArgs, Decls.name, declsM], fun m w hw f => ?_⟩
  · match k, hv, ha with
    | 0, hv, ha => cases hv; cases ha; exact .ind rfl (.con hF rfl rfl rfl rfl (by simp))
    | k + 1, hv, _ => simp at hv
  · have ht : V.text declsM (.con (0, 0) 0 [.con (0, 1) 0 []]) = "(node fnil)".toList := by simp [V.text, textArgs, Decls.name, declsM]
    rw [ht]
    have hrun : ∀ f w, runPrinter tysM m f 0 [] w ≠ some "fnil".toList := by
      intro f w h
      cases f with
      | zero => simp [runPrinter] at h
      | succ f =>
        rw [tree_run] at h
        split at h
        · cases hr : runPrinter tysM m f 0 [] (m w) <;> simp [hr] at h
        · simp at h
    cases f with
    | zero => simp [runPrinter]
    | succ f =>
      rw [tree_run]
      split
      · intro h
        cases hr : runPrinter tysM m f 0 [] (m w) with
        | none => simp [hr] at h
        | some s =>
          rw [hr] at h
          refine hrun f (m w) (hr.trans (congrArg some ?_))
          have h' := Option.some.inj h
          have : "(node ".toList ++ s ++ [')'] = "(node ".toList ++ "fnil".toList ++ [')'] := h'.trans (by decide)
          exact List.append_cancel_left (List.append_cancel_right this)
      · simp

/-- `nat`, `list` and `c (l : list (list nat))`, and `d (x : nat) (y := x) (z : nat)`. -/
def tysN : List TyInfo := tysX.take 2 ++
  [⟨(3, 0), false, [], [⟨['c'], 1, .prod none (.app (.ind (1, 0)) [.app (.ind (1, 0)) [.ind (0, 0)]]) (.rel 1)⟩]⟩,
   ⟨(4, 0), false, [], [⟨['d'], 2, .prod none (.ind (0, 0)) .other⟩]⟩]

/-- A memory with a block of tag 0 at 8, with fields `nil` (or `O`). -/
def memN : WMem := fun a => if a = 0 then 2048 else if a = 8 then 1 else if a = 16 then 1 else 0

/-- **C69, refuted for nested applications.** The value `c nil` is printed as `(c )`, although the printer for lists prints its argument. -/
theorem C69_nested_refuted : Ctor.getTag (TyInfo.cnstrs (tysN.getD 2 ⟨(0, 0), false, [], []⟩)) memN 8 = some 0 ∧ memN 8 = 1 ∧
    runPrinter tysN memN 9 1 [0] 1 = some "nil".toList ∧ runPrinter tysN memN 9 2 [] 8 = some "(c )".toList := by
  refine ⟨?_, ?_, ?_, ?_⟩ <;> decide +kernel

/-- The declarations with `d`, whose values have two arguments. -/
def declsL : Decls := declsX ++ [⟨(4, 0), false, [], [(['d'], [.ind (0, 0) [], .ind (0, 0) []])]⟩]

/-- **C69, refuted for `let`s.** The value `d O O` is printed as `(d O)`. -/
theorem C69_let_refuted : ∃ v, HasTy declsL v (.inl ((4, 0), [])) ∧ Rep declsL memN v 8 ∧ v.text declsL = "(d O O)".toList ∧
    runPrinter tysN memN 9 3 [] 8 = some "(d O)".toList := by
  have hnat : declsL.Has (0, 0) _ := ⟨List.mem_cons_self, rfl⟩
  have hd : declsL.Has (4, 0) _ := ⟨List.mem_append_right _ List.mem_cons_self, rfl⟩
  have hO : HasTy declsL (.con (0, 0) 0 []) (.inl ((0, 0), [])) := .con hnat rfl rfl rfl rfl (by simp)
  have rO : Rep declsL memN (.con (0, 0) 0 []) 1 := .unboxed hnat
  refine ⟨.con (4, 0) 0 [.con (0, 0) 0 [], .con (0, 0) 0 []], .con hd rfl rfl rfl rfl fun k v a hv ha => ?_,
    .boxed (by simp) hd (by decide) (by decide) fun k v hv => ?_, by simp [V.text, textArgs, Decls.name, declsL, declsX], by decide +kernel⟩
  · match k, hv, ha with
    | 0, hv, ha => cases hv; cases ha; exact .ind rfl hO
    | 1, hv, ha => cases hv; cases ha; exact .ind rfl hO
    | k + 2, hv, _ => simp at hv
  · match k, hv with
    | 0, hv => cases hv; exact rO
    | 1, hv => cases hv; exact rO
    | k + 2, hv => simp at hv

end Glue
