import Verif.Reify.Lemmas

/-!
# C67: `CertiRocq Eval` gives the term that the program computes
-/

namespace Reify

open CGen (CVal HeapI VRep encodeList encodeList_length)
open Ctor (specOrdinal defaultCtorTag)
open Conv (Types toFO toFOs)
open ANF (Defs FO)

theorem bound {P : Nat → Nat → Prop} : ∀ {len : Nat}, (∀ k < len, ∃ n, ∀ m, n ≤ m → P k m) → ∃ N, ∀ k < len, ∀ m, N ≤ m → P k m
  | 0, _ => ⟨0, fun _ h => absurd h (by omega)⟩
  | len + 1, h => by
    obtain ⟨N, hN⟩ := bound (P := P) (len := len) fun k hk => h k (by omega)
    obtain ⟨n, hn⟩ := h len (by omega)
    refine ⟨max N n, fun k hk m hm => ?_⟩
    rcases Nat.lt_succ_iff_lt_or_eq.1 hk with hk | rfl
    · exact hN k hk m (le_trans (le_max_left _ _) hm)
    · exact hn m (le_trans (le_max_right _ _) hm)

theorem toVals_get (tag : Src.Dcon → Nat) (dflt : Nat) (prop : Nat → Bool) (im : Mapping) : ∀ (ts : List Term) (k : Nat),
    (FO.toVals (toFOs tag dflt (erases prop im ts)))[k]? = ts[k]?.map fun t => (toFO tag dflt (erase prop im t)).toVal
  | [], _ => by simp [erases, toFOs, FO.toVals]
  | t :: ts, 0 => by simp [erases, toFOs, FO.toVals]
  | t :: ts, k + 1 => by
    simp only [erases, toFOs, FO.toVals, List.getElem?_cons_succ]
    exact toVals_get tag dflt prop im ts k

theorem toVals_length (tag : Src.Dcon → Nat) (dflt : Nat) (prop : Nat → Bool) (im : Mapping) : ∀ (ts : List Term),
    (FO.toVals (toFOs tag dflt (erases prop im ts))).length = ts.length
  | [] => by simp [erases, toFOs, FO.toVals]
  | t :: ts => by
    simp only [erases, toFOs, FO.toVals, List.length_cons]
    rw [toVals_length tag dflt prop im ts]

/-- What the mappings have to satisfy: each constructor is listed once, and the mapping is its own inverse. -/
def GoodMap (E : Env) (im : Mapping) : Prop :=
  ∀ i D, E i = some D → ∀ tags, im.lookup i = some tags → Reorders tags D.ctors.length ∧ SelfInverse tags

theorem findReverse_ok {E : Env} {im : Mapping} (him : GoodMap E im) {i : Nat} {D : IDecl} (hD : E i = some D) {c : Nat} (hc : c < D.ctors.length) :
    findReverse i im (position im i c) = c := by
  unfold findReverse position
  cases hl : im.lookup i with
  | none => rfl
  | some tags =>
    obtain ⟨hp, hs⟩ := him i D hD tags hl
    have hn : tags.Nodup := hp.nodup_iff.2 List.nodup_range
    have hmem : c ∈ tags := by rw [hp.mem_iff, List.mem_range]; exact hc
    have hi : tags.idxOf c < tags.length := List.idxOf_lt_length_of_mem hmem
    have h1 : tags[tags.idxOf c]? = some c := by rw [List.getElem?_eq_getElem hi, List.getElem_idxOf]
    have h2 := hs _ _ h1
    simp only
    rw [if_pos (List.mem_of_getElem? h2)]
    exact idxOf_get hn h2

/-- A constructor without arguments is read back as the one that `find_reverse_mapping` gives. -/
theorem reify_const {E : Env} {im : Mapping} {T : Types} {mem : Nat → Option CVal}
    (hT : T.Ok) (hag : Agrees E im T) {i c : Nat} {D : IDecl} (hD : E i = some D) (hpl : D.Plain)
    (him : MapOk im i D.ctors.length) (hc : D.ctors[c]? = some []) :
    ∃ info, T.cenv (T.tag (i, position im i c)) = some info ∧ info.arity = 0 ∧ ∀ (args : List Ty) (m : Nat),
      reify im E mem (m + 1) (.ind i args) (.int (2 * (info.ordinal : Nat) + 1)) = .ok (.con i (findReverse i im (position im i c)) (args.take D.npars) []) := by
  obtain ⟨tys, ity, ⟨hb1, hb2⟩, hl, ha⟩ := hag i D hD
  obtain ⟨k, hk1, hk2⟩ := ha c [] hc
  obtain ⟨-, -, -, itag, -, -, -, hinfo, -⟩ := Ctor.C45_info T.decls hT.nodup (T.name i).1 (T.name i).2 (position im i c) ity k ⟨⟨tys, hb1, hb2⟩, hk1⟩
  refine ⟨_, hinfo, hk2, fun args m => ?_⟩
  obtain ⟨cs', h1, h2, h3, h4⟩ := reordered (cs := D.ctors) him (inst (args.take D.npars))
  have hord := ordinal_count hpl h2 h3 h4 hl ha hc
  have hfind := findAux_count (p := fun c => c.isEmpty) 0 0 (h3 c [] hc) rfl
  simp only [nargs, List.filter_nil, List.length_nil, if_true] at hord
  rw [← hord, Nat.zero_add, Nat.zero_add] at hfind
  unfold reify
  simp only [hD]
  rw [show applyReordering i im (D.ctors.map fun c => c.map fun d => ⟨d.isLet, d.ty.subst (args.take D.npars)⟩) = some cs' from h1]
  simp only
  rw [if_pos (by omega), show (2 * ((specOrdinal ity.ctors (position im i c) : Nat) : Int) + 1) / 2 = (specOrdinal ity.ctors (position im i c) : Nat) by omega]
  unfold findNthConstant
  rw [hfind]

/-- **C67, partial.** The word that represents what is computed for a term `t` of type `ty` is read back as `t`: for all types without
proofs, all terms, memories and declarations.  Missing: types with constructors whose only arguments are `let`s, mappings that are not their own inverse (see the
refutations below), arguments that depend on each other; values of types that are neither inductive nor primitive are refused. -/
theorem C67_reify_partial {E : Env} {im : Mapping} {T : Types} {G : HeapI} {cenv : Ctor.PMap Ctor.Info} {B : Defs} {mem : Nat → Option CVal}
    {lo hi : Nat} (hE : ∀ i D, E i = some D → D.Plain) (him : GoodMap E im) (hT : T.Ok) (hag : Agrees E im T)
    (hbox : ∀ p ∈ T.decls, ∀ t ∈ p.2, Ctor.boxedCount t.ctors ≤ 256)
    (hce : ∀ t i, T.cenv t = some i → cenv t = some i) {t : Term} {ty : Ty} (ht : HasTy E t ty) {c : CVal}
    (hv : VRep G cenv B mem lo hi (toFO T.tag defaultCtorTag (erase (fun _ => false) im t)).toVal c) :
    ∃ n, ∀ m, n ≤ m → reify im E mem m ty c = .ok t := by
  induction ht generalizing c with
  | @con i c0 D ds args ts hD hc hlen hts ih =>
    have hpl := hE i D hD
    obtain ⟨cs', h1, h2, h3, h4⟩ := reordered (cs := D.ctors) (fun tags h => (him i D hD tags h).1) (inst (args.take D.npars))
    obtain ⟨tys, ity, ⟨hb1, hb2⟩, hl, ha⟩ := hag i D hD
    obtain ⟨k, hk1, hk2⟩ := ha c0 ds hc
    obtain ⟨-, -, -, itag, -, -, -, hinfo, -⟩ := Ctor.C45_info T.decls hT.nodup (T.name i).1 (T.name i).2 (position im i c0) ity k ⟨⟨tys, hb1, hb2⟩, hk1⟩
    have hinfo := hce _ _ hinfo
    have hord := ordinal_count hpl h2 h3 h4 hl ha hc
    have hpos := h3 c0 ds hc
    have hrev := findReverse_ok him hD (List.getElem?_eq_some_iff.1 hc).1
    simp only [erase, Bool.false_eq_true, if_false, toFO, FO.toVal] at hv
    generalize hvs : FO.toVals (toFOs T.tag defaultCtorTag (erases (fun _ => false) im ts)) = vs at hv
    have hvl : vs.length = ts.length := by rw [← hvs, toVals_length]
    cases hv with
    | enum h5 h6 =>
      rw [show cenv (T.tag (i, position im i c0)) = _ from hinfo] at h5
      cases h5
      simp only at h6
      have hz : nargs ds = 0 := by rw [← hk2]; exact h6
      have hds : ds = [] := hpl ds (List.mem_of_getElem? hc) hz
      have hnil : ts = [] := List.length_eq_zero_iff.1 (by rw [hlen, hz])
      subst hnil
      obtain ⟨info, e1, -, e3⟩ := reify_const (mem := mem) hT hag hD hpl (fun tags h => (him i D hD tags h).1) (hds ▸ hc)
      have hinfo := Option.some.inj ((hce _ _ e1).symm.trans hinfo)
      subst hinfo
      refine ⟨1, fun m hm => ?_⟩
      obtain ⟨m, rfl⟩ : ∃ m', m = m' + 1 := ⟨m - 1, by omega⟩
      rw [e3 args m, hrev]
    | @boxed _ info _ p cs h5 h6 h7 _ h8 h9 h10 h11 _ =>
      rw [show cenv (T.tag (i, position im i c0)) = _ from hinfo] at h5
      cases h5
      simp only at h6 h8
      have hnz : nargs ds ≠ 0 := by rw [← hk2]; omega
      have hfind := findAux_count (p := fun c => !c.isEmpty) 0 0 hpos (by
        rw [inst_empty]
        cases ds with
        | nil => exact absurd rfl hnz
        | cons _ _ => rfl)
      simp only [hnz, if_false] at hord
      rw [← hord, Nat.zero_add, Nat.zero_add] at hfind
      have hsmall : specOrdinal ity.ctors (position im i c0) < 256 := by
        exact lt_of_lt_of_le (Ctor.ordFrom_lt_boxed _ _ _ hk1 (by omega)) (hbox _ hb1 _ (List.mem_of_getElem? hb2))
      obtain ⟨N, hN⟩ := bound (len := ts.length) (P := fun k m => ∀ d t c, (ds.filter fun d => !d.isLet)[k]? = some d → ts[k]? = some t →
          cs[k]? = some c → reify im E mem m (d.ty.subst (args.take D.npars)) c = .ok t) fun k hk => by
        have hk' : k < (ds.filter fun d => !d.isLet).length := by rw [hlen] at hk; exact hk
        have hkc : k < cs.length := by omega
        obtain ⟨n, hn⟩ := ih k ts[k] (ds.filter fun d => !d.isLet)[k] (by simp [hk]) (by simp [hk']) (c := cs[k]) (h11 k _ _ (by
          rw [← hvs, toVals_get, List.getElem?_eq_getElem hk]
          rfl) (by simp [hkc]))
        refine ⟨n, fun m hm d t c e1 e2 e3 => ?_⟩
        rw [List.getElem?_eq_getElem hk'] at e1
        rw [List.getElem?_eq_getElem hk] at e2
        rw [List.getElem?_eq_getElem hkc] at e3
        cases e1
        cases e2
        cases e3
        exact hn m hm
      refine ⟨N + 1, fun m hm => ?_⟩
      obtain ⟨m, rfl⟩ : ∃ m', m = m' + 1 := ⟨m - 1, by omega⟩
      have hargs : reifyArgs (reify im E mem m) mem ((inst (args.take D.npars) ds).filter fun d => !d.isLet) p = .ok ts := by
        rw [inst_filter]
        refine reifyArgs_ok (cs := cs) (by rw [List.length_map]; exact hlen) (by rw [List.length_map, h9, hvl]; exact hlen) h10 ?_
        intro k d t c e1 e2 e3
        rw [List.getElem?_map] at e1
        obtain ⟨d', e1', rfl⟩ := Option.map_eq_some_iff.1 e1
        exact hN k (List.getElem?_eq_some_iff.1 e2).1 m (by omega) d' t c e1' e2 e3
      unfold reify
      simp only [hD]
      rw [show applyReordering i im (D.ctors.map fun c => c.map fun d => ⟨d.isLet, d.ty.subst (args.take D.npars)⟩) = some cs' from h1]
      simp only [h8]
      rw [show ((k.arity : Int) * 1024 + (specOrdinal ity.ctors (position im i c0) : Nat)) % 256 = (specOrdinal ity.ctors (position im i c0) : Nat) by omega]
      unfold findNthNonConstant
      rw [hfind]
      simp only [hpos, hargs, Res.bind, hrev]
  | int hn =>
    cases hv
    refine ⟨1, fun m hm => ?_⟩
    obtain ⟨m, rfl⟩ : ∃ m', m = m' + 1 := ⟨m - 1, by omega⟩
    unfold reify
    rw [if_pos (by omega)]
    congr 2
    omega
  | float =>
    cases hv with
    | float _ _ h _ =>
      refine ⟨1, fun m hm => ?_⟩
      obtain ⟨m, rfl⟩ : ∃ m', m = m' + 1 := ⟨m - 1, by omega⟩
      unfold reify
      simp only [h]
  | @str s hs =>
    cases hv with
    | str _ h1 h2 _ =>
      refine ⟨1, fun m hm => ?_⟩
      obtain ⟨m, rfl⟩ : ∃ m', m = m' + 1 := ⟨m - 1, by omega⟩
      unfold reify
      simp only [h1]
      rw [show ((((s.length : Int) / 8 + 1) * 1024 + 252) / 1024).toNat = (encodeList s).length by rw [encodeList_length]; omega]
      rw [readWords_ok h2]
      simp only [stringOf_encode hs]

/-! ## Mappings -/

/-- **C67, mappings.** For a type whose constructors have no arguments, with a mapping that lists each constructor once: all constructors
are read back as themselves if and only if the mapping is its own inverse. `find_reverse_mapping` looks the position up in the mapping a second
time, where the entry at that position is needed. -/
theorem C67_mapping_iff {E : Env} {im : Mapping} {T : Types} {mem : Nat → Option CVal} {G : HeapI} {B : Defs} {lo hi : Nat}
    (hT : T.Ok) (hag : Agrees E im T) {i : Nat} {D : IDecl} (hD : E i = some D) (hz : ∀ c ∈ D.ctors, c = []) {tags : List Nat}
    (ht : im.lookup i = some tags) (hr : Reorders tags D.ctors.length) :
    (∀ c < D.ctors.length, ∀ args v,
      VRep G T.cenv B mem lo hi (toFO T.tag defaultCtorTag (erase (fun _ => false) im (.con i c (args.take D.npars) []))).toVal v →
      ∃ n, ∀ m, n ≤ m → reify im E mem m (.ind i args) v = .ok (.con i c (args.take D.npars) [])) ↔ SelfInverse tags := by
  have hpl : D.Plain := fun c hc _ => hz c hc
  have him : MapOk im i D.ctors.length := fun tags' h => by rw [ht] at h; cases h; exact hr
  have hn : tags.Nodup := hr.nodup_iff.2 List.nodup_range
  have hmem : ∀ {x}, x ∈ tags ↔ x < D.ctors.length := fun {x} => by rw [hr.mem_iff, List.mem_range]
  have hlen : tags.length = D.ctors.length := by rw [hr.length_eq, List.length_range]
  have hget : ∀ c (h : c < D.ctors.length), D.ctors[c]? = some [] := fun c h => by
    rw [List.getElem?_eq_getElem h, hz _ (List.getElem_mem h)]
  have hrev : ∀ c < D.ctors.length, findReverse i im (position im i c) = tags.idxOf (tags.idxOf c) := fun c hc => by
    unfold findReverse position
    rw [ht]
    have : tags.idxOf c < tags.length := List.idxOf_lt_length_of_mem (hmem.2 hc)
    simp only
    rw [if_pos (hmem.2 (hlen ▸ this))]
  constructor
  · intro h j k hjk
    have hk : k < D.ctors.length := hmem.1 (List.mem_of_getElem? hjk)
    obtain ⟨info, e1, e2, e3⟩ := reify_const (mem := mem) hT hag hD hpl him (hget k hk)
    obtain ⟨n, hn'⟩ := h k hk [] (.int (2 * (info.ordinal : Nat) + 1)) (by
      simp only [erase, erases, toFO, toFOs, FO.toVal, FO.toVals, Bool.false_eq_true, if_false]
      exact .enum e1 e2)
    have h1 := hn' (n + 1) (by omega)
    rw [e3 [] n, hrev k hk] at h1
    simp only [Res.ok.injEq, Term.con.injEq, true_and, and_true] at h1
    rw [idxOf_get hn hjk] at h1
    have hj : j ∈ tags := hmem.2 (hlen ▸ (List.getElem?_eq_some_iff.1 hjk).1)
    have hi : tags.idxOf j < tags.length := List.idxOf_lt_length_of_mem hj
    rw [← h1, List.getElem?_eq_getElem hi, List.getElem_idxOf]
  · intro h c hc args v hv
    obtain ⟨info, e1, e2, e3⟩ := reify_const (mem := mem) hT hag hD hpl him (hget c hc)
    simp only [erase, erases, toFO, toFOs, FO.toVal, FO.toVals, Bool.false_eq_true, if_false] at hv
    cases hv with
    | enum h5 h6 =>
      have h5 := Option.some.inj (e1.symm.trans h5)
      subst h5
      refine ⟨1, fun m hm => ?_⟩
      obtain ⟨m, rfl⟩ : ∃ m', m = m' + 1 := ⟨m - 1, by omega⟩
      rw [e3 args m, hrev c hc]
      have hi : tags.idxOf c < tags.length := List.idxOf_lt_length_of_mem (hmem.2 hc)
      have h7 := h (tags.idxOf c) c (by rw [List.getElem?_eq_getElem hi, List.getElem_idxOf])
      rw [idxOf_get hn h7]
    | boxed _ _ h => simp at h

/-- Types of the examples: `colour := red | green | blue` and `event := key (n : int) | up | down`. -/
def envC : Env
  | 0 => some ⟨0, [[], [], []]⟩
  | 1 => some ⟨0, [[⟨false, .int⟩], [], []]⟩
  | _ => none

/-- Their declarations in the compiler, with the constructors of both in the order 1, 2, 0. -/
def typesC : Types :=
  ⟨[(⟨.file ["C".toList], "colour".toList⟩, [⟨"colour".toList, [⟨"green".toList, 0⟩, ⟨"blue".toList, 0⟩, ⟨"red".toList, 0⟩]⟩,
     ⟨"event".toList, [⟨"up".toList, 0⟩, ⟨"down".toList, 0⟩, ⟨"key".toList, 1⟩]⟩])],
   fun i => (⟨.file ["C".toList], "colour".toList⟩, i)⟩

/-- The mapping of the examples. -/
def mapC : Mapping := [(0, [1, 2, 0]), (1, [1, 2, 0])]

theorem typesC_ok : typesC.Ok := ⟨by simp [typesC], fun i j h => (Prod.mk.inj h).2⟩

theorem agreesC : Agrees envC mapC typesC := by
  intro i D h
  match i, h with
  | 0, h =>
    cases h
    refine ⟨_, _, ⟨List.mem_singleton.2 rfl, rfl⟩, rfl, fun c ds hc => ?_⟩
    match c, hc with
    | 0, hc => cases hc; exact ⟨_, rfl, rfl⟩
    | 1, hc => cases hc; exact ⟨_, rfl, rfl⟩
    | 2, hc => cases hc; exact ⟨_, rfl, rfl⟩
    | n + 3, hc => simp at hc
  | 1, h =>
    cases h
    refine ⟨_, _, ⟨List.mem_singleton.2 rfl, rfl⟩, rfl, fun c ds hc => ?_⟩
    match c, hc with
    | 0, hc => cases hc; exact ⟨_, rfl, rfl⟩
    | 1, hc => cases hc; exact ⟨_, rfl, rfl⟩
    | 2, hc => cases hc; exact ⟨_, rfl, rfl⟩
    | n + 3, hc => simp at hc
  | n + 2, h => cases h

theorem reorders3 : Reorders [1, 2, 0] 3 := by unfold Reorders; decide

/-- **C67, refuted for mappings that are not their own inverse.** With the constructors of `colour := red | green | blue` in the order green, blue, red, a program that
computes `red` makes `CertiRocq Eval` print `green`. -/
theorem C67_mapping_refuted : ∃ (E : Env) (im : Mapping) (T : Types) (t t' : Term) (ty : Ty) (v : CVal),
    (∀ i D, E i = some D → D.Plain) ∧ (∀ i D, E i = some D → MapOk im i D.ctors.length) ∧ T.Ok ∧ Agrees E im T ∧ HasTy E t ty ∧
    (∀ G B mem lo hi, VRep G T.cenv B mem lo hi (toFO T.tag defaultCtorTag (erase (fun _ => false) im t)).toVal v) ∧
    (∀ mem m, reify im E mem (m + 1) ty v = .ok t') ∧ t' ≠ t := by
  have hmap : MapOk mapC 0 3 := fun tags h => by cases h; exact reorders3
  obtain ⟨info, e1, e2, -⟩ := reify_const (mem := fun _ => none) (c := 0) typesC_ok agreesC (show envC 0 = some _ from rfl)
    (fun c hc h => by simp at hc; exact hc) hmap rfl
  refine ⟨envC, mapC, typesC, .con 0 0 [] [], .con 0 1 [] [], .ind 0 [], .int (2 * (info.ordinal : Nat) + 1), ?_, ?_, typesC_ok, agreesC,
    .con (args := []) (show envC 0 = some _ from rfl) rfl rfl (fun k t d h => by simp at h), ?_, ?_, by simp⟩
  · intro i D h
    match i, h with
    | 0, h => cases h; intro c hc; simp at hc; simp [hc]
    | 1, h =>
      cases h
      intro c hc
      simp at hc
      rcases hc with rfl | rfl <;> simp [nargs]
    | n + 2, h => cases h
  · intro i D h
    match i, h with
    | 0, h => cases h; exact hmap
    | 1, h => cases h; exact fun tags h => by cases h; exact reorders3
    | n + 2, h => cases h
  · intro G B mem lo hi
    simp only [erase, erases, toFO, toFOs, FO.toVal, FO.toVals, Bool.false_eq_true, if_false]
    exact .enum e1 e2
  · intro mem m
    obtain ⟨info', e1', -, e3⟩ := reify_const (mem := mem) (c := 0) typesC_ok agreesC (show envC 0 = some _ from rfl)
      (fun c hc h => by simp at hc; exact hc) hmap rfl
    have := Option.some.inj (e1.symm.trans e1')
    subst this
    rw [e3 [] m]
    rfl

/-- **C67, refuted: terms that are not well typed.** Whatever the order of constructors means to the compiler: with such a mapping the arguments are read with the types of one constructor and
given to another. -/
theorem C67_typing_refuted : ∃ (E : Env) (im : Mapping) (mem : Nat → Option CVal) (ty : Ty) (v : CVal) (t : Term),
    (∀ i D, E i = some D → D.Plain) ∧ (∀ i D, E i = some D → MapOk im i D.ctors.length) ∧
    (∀ m, reify im E mem (m + 2) ty v = .ok t) ∧ ¬ HasTy E t ty := by
  refine ⟨envC, mapC, fun a => if a = 0 then some (.int 1024) else if a = 1 then some (.int 7) else none, .ind 1 [], .ptr 1, .con 1 1 [] [.int 3], ?_, ?_, ?_, ?_⟩
  · intro i D h
    match i, h with
    | 0, h => cases h; intro c hc; simp at hc; simp [hc]
    | 1, h =>
      cases h
      intro c hc
      simp at hc
      rcases hc with rfl | rfl <;> simp [nargs]
    | n + 2, h => cases h
  · intro i D h
    match i, h with
    | 0, h => cases h; exact fun tags h => by cases h; exact reorders3
    | 1, h => cases h; exact fun tags h => by cases h; exact reorders3
    | n + 2, h => cases h
  · intro m
    rfl
  · intro h
    generalize he : Term.con 1 1 [] [.int 3] = t at h
    cases h with
    | con h1 h2 h3 h4 =>
      injection he with e1 e2 e3 e4
      subst e2 e4
      cases h1
      cases h2
      simp [nargs] at h3

/-! ## `let`s and proofs -/

/-- `Inductive lt := c (x := 0) | d`. -/
def envL : Env
  | 0 => some ⟨0, [[⟨true, .int⟩], []]⟩
  | _ => none

/-- Its declaration in the compiler: neither constructor has arguments. -/
def typesL : Types :=
  ⟨[(⟨.file ["L".toList], "lt".toList⟩, [⟨"lt".toList, [⟨"c".toList, 0⟩, ⟨"d".toList, 0⟩]⟩])], fun i => (⟨.file ["L".toList], "lt".toList⟩, i)⟩

/-- **C67, refuted for `let`s.** In `Inductive lt := c (x := 0) | d` the first constructor counts as one with arguments: `c` is read back as `d`. -/
theorem C67_let_refuted : ∃ (E : Env) (T : Types) (t t' : Term) (ty : Ty) (v : CVal), T.Ok ∧ Agrees E [] T ∧ HasTy E t ty ∧
    (∀ G B mem lo hi, VRep G T.cenv B mem lo hi (toFO T.tag defaultCtorTag (erase (fun _ => false) [] t)).toVal v) ∧
    (∀ mem m, reify [] E mem (m + 1) ty v = .ok t') ∧ t' ≠ t := by
  refine ⟨envL, typesL, .con 0 0 [] [], .con 0 1 [] [], .ind 0 [], .int 1, ⟨by simp [typesL], fun i j h => (Prod.mk.inj h).2⟩, ?_,
    .con (args := []) (show envL 0 = some _ from rfl) rfl rfl (fun k t d h => by simp at h), ?_, fun _ _ => rfl, by simp⟩
  · intro i D h
    match i, h with
    | 0, h =>
      cases h
      refine ⟨_, _, ⟨List.mem_singleton.2 rfl, rfl⟩, rfl, fun c ds hc => ?_⟩
      match c, hc with
      | 0, hc => cases hc; exact ⟨_, rfl, rfl⟩
      | 1, hc => cases hc; exact ⟨_, rfl, rfl⟩
      | n + 2, hc => simp at hc
    | n + 1, h => cases h
  · intro G B mem lo hi
    simp only [erase, erases, toFO, toFOs, FO.toVal, FO.toVals, Bool.false_eq_true, if_false]
    exact VRep.enum (t := typesL.tag (0, 0)) (i := ⟨some "c".toList, some "lt".toList, _, 0, 0⟩) rfl rfl

/-- `sig (n : int) (p : q)` with a proof `p` of the conjunction `q`. -/
def envP : Env
  | 0 => some ⟨0, [[⟨false, .int⟩, ⟨false, .ind 1 []⟩]]⟩
  | 1 => some ⟨0, [[⟨false, .ind 2 []⟩, ⟨false, .ind 2 []⟩]]⟩
  | 2 => some ⟨0, [[]]⟩
  | _ => none

/-- Its declaration in the compiler. -/
def typesP : Types :=
  ⟨[(⟨.file ["P".toList], "sig".toList⟩, [⟨"sig".toList, [⟨"exist".toList, 2⟩]⟩, ⟨"and".toList, [⟨"conj".toList, 2⟩]⟩, ⟨"True".toList, [⟨"I".toList, 0⟩]⟩])],
    fun i => (⟨.file ["P".toList], "sig".toList⟩, i)⟩

/-- **C67, refuted for proofs.** A number with the proof of a conjunction, as in `{n | p n /\ q n}`: the proof is erased, its place is read as a
value of its type, and `CertiRocq Eval` fails with an anomaly. -/
theorem C67_proof_refuted : ∃ (E : Env) (prop : Nat → Bool) (T : Types) (mem : Nat → Option CVal) (t : Term) (ty : Ty) (v : CVal),
    (∀ i D, E i = some D → D.Plain) ∧ T.Ok ∧ Agrees E [] T ∧ HasTy E t ty ∧
    (∀ B, VRep .top T.cenv B mem 3 3 (toFO T.tag defaultCtorTag (erase prop [] t)).toVal v) ∧ ∀ m, reify [] E mem (m + 2) ty v = .illFormed := by
  refine ⟨envP, fun i => i != 0, typesP, fun a => if a = 0 then some (.int 2048) else if a = 1 then some (.int 7) else if a = 2 then some (.int 1) else none,
    .con 0 0 [] [.int 3, .con 1 0 [] [.con 2 0 [] [], .con 2 0 [] []]], .ind 0 [], .ptr 1, ?_, ⟨by simp [typesP], fun i j h => (Prod.mk.inj h).2⟩, ?_, ?_, ?_, fun _ => rfl⟩
  · intro i D h
    match i, h with
    | 0, h => cases h; intro c hc; simp at hc; subst hc; simp [nargs]
    | 1, h => cases h; intro c hc; simp at hc; subst hc; simp [nargs]
    | 2, h => cases h; intro c hc; simp at hc; simp [hc]
    | n + 3, h => cases h
  · intro i D h
    match i, h with
    | 0, h =>
      cases h
      refine ⟨_, _, ⟨List.mem_singleton.2 rfl, rfl⟩, rfl, fun c ds hc => ?_⟩
      match c, hc with
      | 0, hc => cases hc; exact ⟨_, rfl, rfl⟩
      | n + 1, hc => simp at hc
    | 1, h =>
      cases h
      refine ⟨_, _, ⟨List.mem_singleton.2 rfl, rfl⟩, rfl, fun c ds hc => ?_⟩
      match c, hc with
      | 0, hc => cases hc; exact ⟨_, rfl, rfl⟩
      | n + 1, hc => simp at hc
    | 2, h =>
      cases h
      refine ⟨_, _, ⟨List.mem_singleton.2 rfl, rfl⟩, rfl, fun c ds hc => ?_⟩
      match c, hc with
      | 0, hc => cases hc; exact ⟨_, rfl, rfl⟩
      | n + 1, hc => simp at hc
    | n + 3, h => cases h
  · have hI : HasTy envP (.con 2 0 [] []) (.ind 2 []) := .con (args := []) (show envP 2 = some _ from rfl) rfl rfl (fun k t d h => by simp at h)
    have hP : HasTy envP (.con 1 0 [] [.con 2 0 [] [], .con 2 0 [] []]) (.ind 1 []) := by
      refine .con (args := []) (show envP 1 = some _ from rfl) rfl rfl (fun k t d h1 h2 => ?_)
      match k, h1, h2 with
      | 0, h1, h2 => cases h1; cases h2; exact hI
      | 1, h1, h2 => cases h1; cases h2; exact hI
      | n + 2, h1, _ => simp at h1
    refine .con (args := []) (show envP 0 = some _ from rfl) rfl rfl (fun k t d h1 h2 => ?_)
    match k, h1, h2 with
    | 0, h1, h2 => cases h1; cases h2; exact .int (by decide)
    | 1, h1, h2 => cases h1; cases h2; exact hP
    | n + 2, h1, _ => simp at h1
  · intro B
    simp only [erase, erases, toFO, toFOs, FO.toVal, FO.toVals]
    refine VRep.boxed (t := typesP.tag (0, 0)) (i := ⟨some "exist".toList, some "sig".toList, _, 2, 0⟩) (cs := [.int 7, .int 1]) rfl rfl (by decide)
      ⟨by decide, .inl (by decide)⟩ rfl rfl ?_ ?_ trivial
    · intro k c h
      match k, h with
      | 0, h => cases h; rfl
      | 1, h => cases h; rfl
      | n + 2, h => simp at h
    · intro k v c h1 h2
      match k, h1, h2 with
      | 0, h1, h2 => cases h1; cases h2; exact VRep.int (n := 3)
      | 1, h1, h2 => cases h1; cases h2; exact VRep.enum (t := defaultCtorTag) (i := ⟨none, none, _, 0, 0⟩) rfl rfl
      | n + 2, _, h2 => simp at h2

/-! ## Types of arguments -/

theorem substs_map (ps : List Ty) : ∀ as : List Ty, Ty.substs ps as = as.map (Ty.subst ps)
  | [] => rfl
  | a :: as => by rw [Ty.substs, substs_map ps as]; rfl

/-- The types at which arguments are read are the declared types with the parameters of the type of the value. -/
theorem C67_types {ps : List Ty} {ty ty' : Ty} (h : Inst ps ty ty') : ty.subst ps = ty' := by
  induction h with
  | param h => rw [Ty.subst, List.getD_eq_getElem?_getD, h]; rfl
  | @ind i as bs hl _ ih =>
    rw [Ty.subst, substs_map]
    congr 1
    refine List.ext_getElem (by simpa using hl) fun k h1 h2 => ?_
    rw [List.getElem_map]
    exact ih k _ _ (List.getElem?_eq_getElem (by simpa using h1)) (List.getElem?_eq_getElem h2)
  | int | float | str | array | other => rfl

/-- `list A` at `nat`. -/
example : Inst [.ind 0 [], .int] (.ind 1 [.param 0, .param 1, .float]) (.ind 1 [.ind 0 [], .int, .float]) := by
  refine .ind rfl fun k a b ha hb => ?_
  match k with
  | 0 => cases ha; cases hb; exact .param rfl
  | 1 => cases ha; cases hb; exact .param rfl
  | 2 => cases ha; cases hb; exact .float

end Reify
