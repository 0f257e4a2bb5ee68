import Verif.ANF.DpeLemmas

/-! # Dead parameter elimination: simulation -/

namespace ANF
namespace Dpe

/-- What the elimination phase needs from the analysis. -/
structure Analysis (B : Defs) (L : LiveFun) : Prop where
  fits : Fits B L
  stable : StableAt L B
  noEsc : ∀ y ∈ escVB B, L y = none
  hoisted : isHoistedB B = true
  names : B.names.Nodup
  params : ∀ f ft xs e, (f, ft, xs, e) ∈ B.toList → xs.Nodup ∧ (∀ x ∈ xs, x ∉ B.names) ∧ ∀ x ∈ e.bv, x ∉ B.names

section
variable {B : Defs} {L : LiveFun} {fmap : Var → Option Tag} {S : Sig}

theorem elimB_find : ∀ {B : Defs} {f ft xs e}, findDef f B = some (ft, xs, e) →
    findDef f (elimB fmap L B) = some (match L f with
      | some bs => (getFunTag fmap f, liveArgs xs bs, elimE fmap L e)
      | none => (ft, xs, elimE fmap L e)) := by
  intro B
  induction B using Defs.ind with
  | nil => intro f ft xs e h; simp [findDef] at h
  | cons g gt ys e' B ih =>
    intro f ft xs e h
    simp only [findDef] at h
    simp only [elimB]
    split at h
    · next hfg =>
      cases h; subst hfg
      cases L f <;> simp [findDef]
    · next hfg =>
      have := ih h
      cases L g <;> simp only [findDef, hfg, if_false] <;> exact this

theorem elimB_names : ∀ B : Defs, (elimB fmap L B).names = B.names := by
  intro B
  induction B using Defs.ind with
  | nil => rfl
  | cons g gt ys e' B ih => simp only [elimB]; cases L g <;> simp only [Defs.names, ih]

theorem elimBs_tags : ∀ bs : Brs, (elimBs fmap L bs).tags = bs.tags := by
  intro bs
  induction bs using Brs.ind with
  | nil => rfl
  | cons t e bs ih => simp only [elimBs, Brs.tags, ih]

variable (B L fmap)

/-- Source and target values. -/
inductive DRel : Val → Val → Prop
  | constr {t : Tag} {vs vs' : List Val} (len : vs.length = vs'.length)
      (args : ∀ (i : Nat) v v', vs[i]? = some v → vs'[i]? = some v' → DRel v v') : DRel (.constr t vs) (.constr t vs')
  | prim {p : PVal} : DRel (.prim p) (.prim p)
  | fn {f} (mem : f ∈ B.names) (esc : L f = none) : DRel (.fn emp B f) (.fn emp (elimB fmap L B) f)

/-- Function names are bound to the functions on both sides. -/
def Globs (ρ ρ' : Env) : Prop :=
  ∀ g ∈ B.names, ρ g = some (.fn emp B g) ∧ ρ' g = some (.fn emp (elimB fmap L B) g)

/-- Side conditions on a term. -/
structure Ok (e : Exp) : Prop where
  hoisted : isHoistedE e = true
  noEsc : ∀ y ∈ escVE e, L y = none
  binders : ∀ x ∈ e.bv, x ∉ B.names

/-- Related environments for a term. -/
def Envs (e : Exp) (ρ ρ' : Env) : Prop :=
  Globs B L fmap ρ ρ' ∧ ERel (DRel B L fmap) (fun x => x ∈ (elimE fmap L e).fv ∧ x ∉ B.names) id ρ ρ'

variable {B L fmap}

theorem DRel.obs {v v'} (h : DRel B L fmap v v') : Obs v v' := by
  induction h with
  | constr len _ ih => exact .constr len ih
  | prim => exact .prim
  | fn => exact .fn .fn

theorem Globs.set {ρ ρ'} (h : Globs B L fmap ρ ρ') {x v v'} (hx : x ∉ B.names) :
    Globs B L fmap (ρ.set x v) (ρ'.set x v') := by
  intro g hg
  have : g ≠ x := by rintro rfl; exact hx hg
  rw [set_other this, set_other this]; exact h g hg

/-- On variables that do not denote a function with dropped parameters the environments are related. -/
theorem Envs.rel {e ρ ρ'} (h : Envs B L fmap e ρ ρ') :
    ERel (DRel B L fmap) (fun x => x ∈ (elimE fmap L e).fv ∧ L x = none) id ρ ρ' := by
  intro x hx v hv
  by_cases hxB : x ∈ B.names
  · obtain ⟨h1, h2⟩ := h.1 x hxB
    rw [h1] at hv; cases hv
    exact ⟨_, h2, .fn hxB hx.2⟩
  · exact h.2 x ⟨hx.1, hxB⟩ v hv

theorem Envs.bind {e ρ ρ' e1 x v v'} (h : Envs B L fmap e ρ ρ') (hr : DRel B L fmap v v') (hx : x ∉ B.names)
    (hfv : ∀ y, y ∈ (elimE fmap L e1).fv → y ≠ x → y ∈ (elimE fmap L e).fv) :
    Envs B L fmap e1 (ρ.set x v) (ρ'.set x v') :=
  ⟨h.1.set hx, h.2.set hr (fun y hy hyx => ⟨⟨hfv y hy.1 hyx, hy.2⟩, hyx⟩)⟩

theorem mem_escVB {f ft xs e} : ∀ {B : Defs}, (f, ft, xs, e) ∈ B.toList → ∀ y ∈ escVE e, y ∈ escVB B := by
  intro B
  induction B using Defs.ind with
  | nil => intro h; simp [Defs.toList] at h
  | cons g gt ys e' B ih =>
    intro h y hy
    simp only [Defs.toList, List.mem_cons] at h
    simp only [escVB, Finset.mem_union]
    rcases h with h | h
    · cases h; exact .inl hy
    · exact .inr (ih h y hy)

theorem mem_isHoistedB {f ft xs e} : ∀ {B : Defs}, (f, ft, xs, e) ∈ B.toList → isHoistedB B = true →
    isHoistedE e = true := by
  intro B
  induction B using Defs.ind with
  | nil => intro h; simp [Defs.toList] at h
  | cons g gt ys e' B ih =>
    intro h hh
    simp only [Defs.toList, List.mem_cons] at h
    simp only [isHoistedB, Bool.and_eq_true] at hh
    rcases h with h | h
    · cases h; exact hh.1
    · exact ih h hh.2

theorem Analysis.ok (hA : Analysis B L) {f ft xs e} (h : (f, ft, xs, e) ∈ B.toList) : Ok B L e :=
  ⟨mem_isHoistedB h hA.hoisted, fun y hy => hA.noEsc y (mem_escVB h y hy), (hA.params f ft xs e h).2.2⟩

/-- Calling a function: the reduced argument list reaches a reduced parameter list. -/
theorem callee_sim (hA : Analysis B L) {ρ ρ' : Env} {f ft ys ρ1 e1} (hg : Globs B L fmap ρ ρ')
    (hf : L f = none → ERel (DRel B L fmap) (· = f) id ρ ρ')
    (hy : ERel (DRel B L fmap) (fun x => x ∈ match L f with | some bs => liveArgs ys bs | none => ys) id ρ ρ')
    (hc : callee ρ f ft ys = some (ρ1, e1)) :
    ∃ ρ1', callee ρ' f (match L f with | some _ => getFunTag fmap f | none => ft)
        (match L f with | some bs => liveArgs ys bs | none => ys) = some (ρ1', elimE fmap L e1) ∧
      Ok B L e1 ∧ Envs B L fmap e1 ρ1 ρ1' := by
  obtain ⟨ρc, B0, f', vs, xs, a, b, c, d⟩ := callee_some hc
  -- the environment of a call, given the arguments that reach it
  have finish : ∀ (xs' : List Var) (vs1 vs' : List Val) (ρs : Env), findDef f' B = some (ft, xs, e1) →
      setLists xs' vs1 (defFuns B B emp emp) = some ρs → (∀ x ∈ xs', ρs x = ρ1 x) →
      setLists xs vs (defFuns B B emp emp) = some ρ1 →
      All2 (DRel B L fmap) vs1 vs' → (∀ x ∈ xs', x ∈ xs) → (∀ x ∈ xs, x ∈ (elimE fmap L e1).fv → x ∈ xs') →
      ∃ ρ1', setLists xs' vs' (defFuns (elimB fmap L B) (elimB fmap L B) emp emp) = some ρ1' ∧
        Ok B L e1 ∧ Envs B L fmap e1 ρ1 ρ1' := by
    intro xs' vs1 vs' ρs hfd hset hagree hset1 hrs hsub hlive
    have hmem := mem_of_findDef hfd
    have hbase : ERel (DRel B L fmap) (fun _ => False) id (defFuns B B emp emp)
        (defFuns (elimB fmap L B) (elimB fmap L B) emp emp) := fun x hx => hx.elim
    obtain ⟨ρ1', e1', h1⟩ := hbase.setLists hrs hset
    refine ⟨ρ1', e1', hA.ok hmem, ?_, ?_⟩
    · intro g hg
      have hgx : g ∉ xs := fun hgx => (hA.params _ _ _ _ hmem).2.1 g hgx hg
      rw [setLists_not_mem hset1 g hgx, setLists_not_mem e1' g (fun h => hgx (hsub g h))]
      exact ⟨defFuns_mem hg, defFuns_mem (by rw [elimB_names]; exact hg)⟩
    · intro x hx v hv
      by_cases hxs : x ∈ xs
      · have hx' := hlive x hxs hx.1
        rw [← hagree x hx'] at hv
        exact h1 x (.inl hx') v hv
      · rw [setLists_not_mem hset1 x hxs, defFuns_not_mem hx.2] at hv
        cases hv
  rcases hL : L f with _ | bs
  · obtain ⟨w, hw, hr⟩ := hf hL f rfl _ a
    simp only [id] at hw
    cases hr with
    | fn mem esc =>
    rw [hL] at hy
    obtain ⟨vs', hvs', hrs⟩ := hy.getList (ys := ys) (fun y h => h) b
    rw [List.map_id] at hvs'
    obtain ⟨ρ1', h1, h2, h3⟩ := finish xs vs vs' ρ1 c d (fun _ _ => rfl) d hrs (fun _ h => h) (fun _ h _ => h)
    have hfd := elimB_find (fmap := fmap) (L := L) c
    rw [esc] at hfd
    exact ⟨ρ1', callee_eq hw hvs' hfd h1, h2, h3⟩
  · obtain ⟨ftd, xsd, ed, hfd, hlen⟩ := hA.fits f bs hL
    obtain ⟨g1, g2⟩ := hg f (findDef_mem hfd)
    rw [g1] at a; cases a
    rw [hfd] at c; cases c
    rw [hL] at hy
    have hb := getList_liveArgs bs b
    obtain ⟨vs', hvs', hrs⟩ := hy.getList (ys := liveArgs ys bs) (fun y h => h) hb
    rw [List.map_id] at hvs'
    have hmem := mem_of_findDef hfd
    obtain ⟨ρs, hs1, hs2⟩ := setLists_liveArgs bs (hA.params _ _ _ _ hmem).1 d
    obtain ⟨ρ1', h1, h2, h3⟩ := finish (liveArgs xs bs) (liveArgs vs bs) vs' ρs hfd hs1 hs2 d hrs
      (fun x hx => (liveArgs_sublist xs bs).subset hx) (by
        intro x hx hxf
        obtain ⟨i, hi⟩ := List.mem_iff_getElem?.mp hx
        have hil : i < bs.length := by rw [hlen]; exact (List.getElem?_eq_some_iff.mp hi).1
        have hbi := List.getElem?_eq_getElem hil
        cases hb : bs[i] with
        | true => rw [hb] at hbi; exact mem_liveArgs hlen hi hbi
        | false =>
          rw [hb] at hbi
          exact absurd (fv_liveE fmap L e1 ∅ (mem_isHoistedB hmem hA.hoisted) hxf)
            (hA.stable f ft xs e1 hmem bs hL i x hi hbi))
    have hfd' := elimB_find (fmap := fmap) (L := L) hfd
    rw [hL] at hfd'
    exact ⟨ρ1', callee_eq g2 hvs' hfd' h1, h2, h3⟩

theorem okBs_find : ∀ {bs : Brs} {t e}, isHoistedBs bs = true → findTag t bs = some e → isHoistedE e = true ∧
    findTag t (elimBs fmap L bs) = some (elimE fmap L e) ∧ (∀ x ∈ (elimE fmap L e).fv, x ∈ (elimBs fmap L bs).fv) ∧
    (∀ x ∈ escVE e, x ∈ escVBs bs) ∧ (∀ x ∈ e.bv, x ∈ bs.bv) := by
  intro bs
  induction bs using Brs.ind with
  | nil => intro t e _ h; simp [findTag] at h
  | cons t' e' bs ih =>
    intro t e h hf
    simp only [isHoistedBs, Bool.and_eq_true] at h
    simp only [findTag, elimBs, Brs.fv, escVBs, Brs.bv, Finset.mem_union, List.mem_append] at hf ⊢
    split at hf
    · next ht =>
      cases hf; rw [if_pos ht]
      exact ⟨h.1, rfl, fun x hx => .inl hx, fun x hx => .inl hx, fun x hx => .inl hx⟩
    · next ht =>
      rw [if_neg ht]
      obtain ⟨a, b, c, d, e⟩ := ih h.2 hf
      exact ⟨a, b, fun x hx => .inr (c x hx), fun x hx => .inr (d x hx), fun x hx => .inr (e x hx)⟩

theorem evalE_sim (hA : Analysis B L) {call call' : Env → Exp → Res}
    (hcall : ∀ ρ ρ' e, Ok B L e → Envs B L fmap e ρ ρ' →
      RRel (DRel B L fmap) (call ρ e) (call' ρ' (elimE fmap L e))) :
    ∀ e ρ ρ', Ok B L e → Envs B L fmap e ρ ρ' →
      RRel (DRel B L fmap) (evalE S call e ρ) (evalE S call' (elimE fmap L e) ρ')
  | .constr x t ys e, ρ, ρ', ok, hρ => by
    have ok' : Ok B L e := ⟨ok.hoisted, fun y hy => ok.noEsc y (by simp [escVE, hy]),
      fun y hy => ok.binders y (by simp [Exp.bv, hy])⟩
    simp only [evalE, elimE]
    rcases hys : getList ρ ys with _ | vs
    · trivial
    obtain ⟨vs', hvs', hrs⟩ := hρ.rel.getList (ys := ys)
      (fun y hy => ⟨by simp [elimE, Exp.fv, hy], ok.noEsc y (by simp [escVE, hy])⟩) hys
    rw [List.map_id] at hvs'
    simp only [hvs']
    exact evalE_sim hA hcall e _ _ ok' (hρ.bind (.constr hrs.1 hrs.2) (ok.binders x (by simp [Exp.bv]))
      (fun y hy hyx => by simp [elimE, Exp.fv, hy, hyx]))
  | .case y bs, ρ, ρ', ok, hρ => by
    simp only [evalE, elimE]
    by_cases hyB : y ∈ B.names
    · obtain ⟨h1, h2⟩ := hρ.1 y hyB
      rw [h1, h2]; trivial
    rcases hy : ρ y with _ | v
    · trivial
    obtain ⟨v', hv', hr⟩ := hρ.2 y ⟨by simp [elimE, Exp.fv], hyB⟩ _ hy
    simp only [id] at hv'
    rw [hv']
    cases hr with
    | prim => trivial
    | fn => trivial
    | @constr t vs vs' len args =>
      dsimp only
      rw [elimBs_tags]
      split
      · simp only [evalB_findTag]
        rcases hf : findTag t bs with _ | e
        · trivial
        obtain ⟨h1, h2, h3, h4, h5⟩ := okBs_find (fmap := fmap) (L := L) ok.hoisted hf
        rw [h2]
        dsimp only
        have hsz : sizeOf e < sizeOf bs := findTag_sizeOf hf
        exact evalE_sim hA hcall e _ _ ⟨h1, fun z hz => ok.noEsc z (by simp [escVE, h4 z hz]),
          fun z hz => ok.binders z (by simp [Exp.bv, h5 z hz])⟩
          ⟨hρ.1, hρ.2.mono (fun x hx => ⟨by simp [elimE, Exp.fv, h3 x hx.1], hx.2⟩)⟩
      · trivial
  | .proj x t n y e, ρ, ρ', ok, hρ => by
    have ok' : Ok B L e := ⟨ok.hoisted, fun y hy => ok.noEsc y (by simp [escVE, hy]),
      fun y hy => ok.binders y (by simp [Exp.bv, hy])⟩
    simp only [evalE, elimE]
    rcases hy : ρ y with _ | v
    · trivial
    obtain ⟨v', hv', hr⟩ := hρ.rel y ⟨by simp [elimE, Exp.fv], ok.noEsc y (by simp [escVE])⟩ _ hy
    simp only [id] at hv'
    rw [hv']
    cases hr with
    | prim => trivial
    | fn => trivial
    | @constr t' vs vs' len args =>
      dsimp only
      split
      · rcases hn : vs[n]? with _ | w
        · trivial
        obtain ⟨w', hw', hrw⟩ := All2.get ⟨len, args⟩ hn
        rw [hw']
        exact evalE_sim hA hcall e _ _ ok' (hρ.bind hrw (ok.binders x (by simp [Exp.bv]))
          (fun y hy hyx => by simp [elimE, Exp.fv, hy, hyx]))
      · trivial
  | .letapp x f ft ys e, ρ, ρ', ok, hρ => by
    have ok' : Ok B L e := ⟨ok.hoisted, fun y hy => ok.noEsc y (by simp [escVE, hy]),
      fun y hy => ok.binders y (by simp [Exp.bv, hy])⟩
    have hfv : ∀ y, y ∈ (elimE fmap L e).fv → y ≠ x → y ∈ (elimE fmap L (.letapp x f ft ys e)).fv := by
      intro y hy hyx
      simp only [elimE]
      cases L f <;> simp [Exp.fv, hy, hyx]
    have hsel : elimE fmap L (.letapp x f ft ys e) = .letapp x f (match L f with | some _ => getFunTag fmap f | none => ft)
        (match L f with | some bs => liveArgs ys bs | none => ys) (elimE fmap L e) := by
      simp only [elimE]; cases L f <;> rfl
    have hrel := hρ.rel
    rw [hsel] at hrel ⊢
    simp only [evalE]
    rcases hc : callee ρ f ft ys with _ | ⟨ρ1, e1⟩
    · trivial
    obtain ⟨ρ1', hc', ok1, hρ1⟩ := callee_sim hA hρ.1
      (fun hL => hrel.mono (by rintro z rfl; exact ⟨by simp [Exp.fv], hL⟩))
      (hrel.mono (by
        intro z hz
        refine ⟨by simp only [Exp.fv, Finset.mem_insert, Finset.mem_union, List.mem_toFinset]; exact .inr (.inl hz), ?_⟩
        have hzy : z ∈ ys := by
          cases hL : L f with
          | none => rw [hL] at hz; exact hz
          | some bs => rw [hL] at hz; exact (liveArgs_sublist ys bs).subset hz
        exact ok.noEsc z (by simp [escVE, hzy]))) hc
    rw [hc']
    dsimp only
    have hb := hcall ρ1 ρ1' e1 ok1 hρ1
    rcases hr : call ρ1 e1 with v | _ | _ <;> rcases hr' : call' ρ1' (elimE fmap L e1) with v' | _ | _ <;>
      rw [hr, hr'] at hb <;> try (first | trivial | exact hb.elim)
    exact evalE_sim hA hcall e _ _ ok' (hρ.bind hb (ok.binders x (by simp [Exp.bv])) hfv)
  | .fn B e, ρ, ρ', ok, hρ => by have := ok.hoisted; simp [isHoistedE] at this
  | .app f ft ys, ρ, ρ', ok, hρ => by
    have hsel : elimE fmap L (.app f ft ys) = .app f (match L f with | some _ => getFunTag fmap f | none => ft)
        (match L f with | some bs => liveArgs ys bs | none => ys) := by
      simp only [elimE]; cases L f <;> rfl
    have hrel := hρ.rel
    rw [hsel] at hrel ⊢
    simp only [evalE]
    rcases hc : callee ρ f ft ys with _ | ⟨ρ1, e1⟩
    · trivial
    obtain ⟨ρ1', hc', ok1, hρ1⟩ := callee_sim hA hρ.1
      (fun hL => hrel.mono (by rintro z rfl; exact ⟨by simp [Exp.fv], hL⟩))
      (hrel.mono (by
        intro z hz
        refine ⟨by simp only [Exp.fv, Finset.mem_insert, List.mem_toFinset]; exact .inr hz, ?_⟩
        have hzy : z ∈ ys := by
          cases hL : L f with
          | none => rw [hL] at hz; exact hz
          | some bs => rw [hL] at hz; exact (liveArgs_sublist ys bs).subset hz
        exact ok.noEsc z (by simp [escVE, hzy]))) hc
    rw [hc']
    exact hcall ρ1 ρ1' e1 ok1 hρ1
  | .primVal x p e, ρ, ρ', ok, hρ => by
    have ok' : Ok B L e := ⟨ok.hoisted, fun y hy => ok.noEsc y (by simp [escVE, hy]),
      fun y hy => ok.binders y (by simp [Exp.bv, hy])⟩
    simp only [evalE, elimE]
    exact evalE_sim hA hcall e _ _ ok' (hρ.bind .prim (ok.binders x (by simp [Exp.bv]))
      (fun y hy hyx => by simp [elimE, Exp.fv, hy, hyx]))
  | .prim x p ys e, ρ, ρ', ok, hρ => by
    have ok' : Ok B L e := ⟨ok.hoisted, fun y hy => ok.noEsc y (by simp [escVE, hy]),
      fun y hy => ok.binders y (by simp [Exp.bv, hy])⟩
    simp only [evalE, elimE]
    rcases hys : getList ρ ys with _ | vs
    · trivial
    obtain ⟨vs', hvs', hrs⟩ := hρ.rel.getList (ys := ys)
      (fun y hy => ⟨by simp [elimE, Exp.fv, hy], ok.noEsc y (by simp [escVE, hy])⟩) hys
    rw [List.map_id] at hvs'
    simp only [hvs']
    rcases ho : S.op p vs with _ | v
    · trivial
    obtain ⟨ho', d, rfl⟩ := op_rel (R := DRel B L fmap) (fun p v h => by cases h; rfl) hrs ho
    rw [ho']
    have hd : DRel B L fmap d.toVal d.toVal := toVal_refl (fun _ => .prim) (fun _ _ _ h => .constr h.1 h.2) d
    exact evalE_sim hA hcall e _ _ ok' (hρ.bind hd (ok.binders x (by simp [Exp.bv]))
      (fun y hy hyx => by simp [elimE, Exp.fv, hy, hyx]))
  | .halt x, ρ, ρ', ok, hρ => by
    simp only [evalE, elimE]
    rcases hx : ρ x with _ | v
    · trivial
    obtain ⟨v', hv', hr⟩ := hρ.rel x ⟨by simp [elimE, Exp.fv], ok.noEsc x (by simp [escVE])⟩ _ hx
    simp only [id] at hv'
    rw [hv']
    exact hr
termination_by e => sizeOf e

theorem run_sim (hA : Analysis B L) : ∀ n ρ ρ' e, Ok B L e → Envs B L fmap e ρ ρ' →
    RRel (DRel B L fmap) (run S n ρ e) (run S n ρ' (elimE fmap L e))
  | 0, ρ, ρ', e => evalE_sim hA (call := fun _ _ => .oot) (call' := fun _ _ => .oot) (fun _ _ _ _ _ => trivial) e ρ ρ'
  | n + 1, ρ, ρ', e => evalE_sim hA (run_sim hA n) e ρ ρ'

end

/-! ## Side conditions -/

theorem dpe_lockstep (S : Sig) {B : Defs} {e : Exp} (fmap : Var → Option Tag) (hh : isHoisted (.fn B e) = true)
    (hn : (Exp.fn B e).bv.Nodup) (n : Nat) :
    RRel (DRel B (findLive B e) fmap) (run S n emp (.fn B e))
      (run S n emp (.fn (elimB fmap (findLive B e) B) (elimE fmap (findLive B e) e))) := by
  simp only [isHoisted, Bool.and_eq_true] at hh
  simp only [Exp.bv, List.nodup_append] at hn
  have hnames := (names_bv B).nodup hn.1
  obtain ⟨h1, h2, h3⟩ := findLive_spec B e hnames
  have hA : Analysis B (findLive B e) :=
    ⟨h1, h3, fun y hy => h2 y (by simp [hy]), hh.1, hnames, params_of_nodup hn.1⟩
  rw [run_fn, run_fn]
  refine run_sim hA n _ _ e ⟨hh.2, fun y hy => h2 y (by simp [hy]), ?_⟩ ⟨?_, ?_⟩
  · intro x hx hxn
    exact hn.2.2 x ((names_bv B).subset hxn) x hx rfl
  · intro g hg
    exact ⟨defFuns_mem hg, defFuns_mem (by rw [elimB_names]; exact hg)⟩
  · intro x hx v hv
    rw [defFuns_not_mem hx.2] at hv
    cases hv

end Dpe
end ANF
