import Verif.ANF.CcSim
import Verif.ANF.HoistSpec

/-! # Closure conversion: scoping of the output -/

namespace ANF
namespace Cc
open Ctor (PMap cloTag)

/-- Code that binds the variables `L`, uses only variables of `Q`, and defines no functions. -/
structure Code (L : List Var) (Q : Var → Prop) (f : Exp → Exp) : Prop where
  bv : ∀ e, (f e).bv = L ++ e.bv
  fns : ∀ e, fnE (f e) = fnE e
  closed : ∀ e G, e.FnsClosed G → (f e).FnsClosed G
  tags : ∀ e, (f e).caseTags = e.caseTags
  fv : ∀ e y, y ∈ (f e).fv → Q y ∨ (y ∈ e.fv ∧ y ∉ L)

theorem Code.id {Q} : Code [] Q id :=
  ⟨fun _ => rfl, fun _ => rfl, fun _ _ h => h, fun _ => rfl, fun _ _ h => .inr ⟨h, by simp⟩⟩

theorem Code.comp {L L' Q f f'} (h : Code L Q f) (h' : Code L' Q f') : Code (L ++ L') Q (fun e => f (f' e)) := by
  refine ⟨fun e => by rw [h.bv, h'.bv, List.append_assoc], fun e => by rw [h.fns, h'.fns],
    fun e G hc => h.closed _ _ (h'.closed _ _ hc), fun e => by rw [h.tags, h'.tags], fun e y hy => ?_⟩
  rcases h.fv _ y hy with hq | ⟨hy1, hy2⟩
  · exact .inl hq
  · rcases h'.fv _ y hy1 with hq | ⟨hy3, hy4⟩
    · exact .inl hq
    · exact .inr ⟨hy3, by simp [hy2, hy4]⟩

theorem Code.mono {L Q Q' f} (h : Code L Q f) (hq : ∀ y, Q y → Q' y) : Code L Q' f :=
  ⟨h.bv, h.fns, h.closed, h.tags, fun e y hy => (h.fv e y hy).imp_left (hq y)⟩

/-- The target variables a source variable is read from. -/
def Src (m : PMap VInfo) (Γ : Var) (x y : Var) : Prop :=
  match m x with
  | some .bound => y = x
  | some (.fvar _) => y = Γ
  | some (.mrfun env) => y = x ∨ y = env
  | none => y = x

/-- A list of binders that comes from source binders and fresh variables of an interval, without repetition. -/
structure BvOk (src : List Var) (a b : Nat) (out : List Var) : Prop where
  nodup : out.Nodup
  mem : ∀ y ∈ out, y ∈ src ∨ (a ≤ y ∧ y < b)

theorem BvOk.append {src1 src2 : List Var} {a b c : Nat} {o1 o2} (h1 : BvOk src1 a b o1) (h2 : BvOk src2 b c o2)
    (hab : a ≤ b) (hbc : b ≤ c) (hd : ∀ x ∈ src1, x ∉ src2) (hs1 : ∀ x ∈ src1, x < a) (hs2 : ∀ x ∈ src2, x < a) :
    BvOk (src1 ++ src2) a c (o1 ++ o2) := by
  refine ⟨List.nodup_append.mpr ⟨h1.nodup, h2.nodup, ?_⟩, ?_⟩
  · intro x hx y hy hxy
    subst hxy
    rcases h1.mem x hx with h | h <;> rcases h2.mem x hy with h' | h'
    · exact hd x h h'
    · have := hs1 x h; vomega
    · have := hs2 x h'; vomega
    · vomega
  · intro y hy
    rcases List.mem_append.mp hy with hy | hy
    · rcases h1.mem y hy with h | h
      · exact .inl (by simp [h])
      · exact .inr (by vomega)
    · rcases h2.mem y hy with h | h
      · exact .inl (by simp [h])
      · exact .inr (by vomega)

theorem BvOk.perm {src src' : List Var} {a b : Nat} {o o'} (h : BvOk src a b o) (hp : o'.Perm o) (hs : ∀ x ∈ src, x ∈ src') :
    BvOk src' a b o' :=
  ⟨hp.nodup_iff.mpr h.nodup, fun y hy => (h.mem y (hp.mem_iff.mp hy)).imp_left (hs y)⟩

theorem BvOk.nil (a b : Nat) : BvOk [] a b [] := ⟨List.nodup_nil, fun _ h => by cases h⟩
theorem BvOk.src {xs : List Var} (h : xs.Nodup) (a : Nat) : BvOk xs a a xs := ⟨h, fun _ h => .inl h⟩
theorem BvOk.fresh (a : Nat) : BvOk [] a (a + 1) [a] :=
  ⟨by simp, fun y h => .inr (by simp at h; subst h; vomega)⟩
theorem BvOk.fresh2 (a : Nat) : BvOk [] a (a + 2) [a, a + 1] :=
  ⟨by simp, fun y h => .inr (by simp at h; rcases h with rfl | rfl <;> vomega)⟩

theorem getVar_code (x m g c Γ) (s : Comp) : ∃ L, Code L (Src m Γ x) (getVar x m g c Γ s).1.2 ∧
    BvOk [] s.next (getVar x m g c Γ s).2.next L ∧
    ((getVar x m g c Γ s).1.1 ∈ L ∨ Src m Γ x (getVar x m g c Γ s).1.1) := by
  unfold getVar Src
  rcases hmx : m x with _ | (n | env | _) <;> dsimp only
  · split
    · refine ⟨[s.next + 1, s.next], ⟨fun e => rfl, fun e => rfl, fun e G h => h, fun e => rfl, ?_⟩, ?_, .inl (by simp [Comp.record])⟩
      · intro e y hy
        simp only [Comp.record, Exp.fv, List.toFinset_cons, List.toFinset_nil, Finset.mem_union, Finset.mem_erase,
          Finset.mem_insert, Finset.notMem_empty, List.mem_cons, List.not_mem_nil, or_false, false_or] at hy ⊢
        obtain ⟨h1, (h2 | h2) | h2⟩ := hy
        · exact .inl h2
        · exact absurd h2 h1
        · exact .inr ⟨h2.2, fun h => h.elim h1 h2.1⟩
      · exact (BvOk.fresh2 s.next).perm (List.Perm.swap _ _ _) (fun _ h => h)
    · exact ⟨[], .id, .nil _ _, .inr rfl⟩
  · refine ⟨[s.next], ⟨fun e => rfl, fun e => rfl, fun e G h => h, fun e => rfl, ?_⟩, BvOk.fresh _, .inl (by simp)⟩
    intro e y hy
    simp only [Exp.fv, Finset.mem_erase, Finset.mem_insert, List.mem_cons, List.not_mem_nil, or_false] at hy ⊢
    exact hy.imp_right (fun h => ⟨h.2, h.1⟩)
  · refine ⟨[s.next], ⟨fun e => rfl, fun e => rfl, fun e G h => h, fun e => rfl, ?_⟩, BvOk.fresh _, .inl (by simp)⟩
    intro e y hy
    simp only [Exp.fv, List.toFinset_cons, List.toFinset_nil, Finset.mem_union, Finset.mem_erase,
      Finset.mem_insert, Finset.notMem_empty, List.mem_cons, List.not_mem_nil, or_false] at hy ⊢
    exact hy.imp_right (fun h => ⟨h.2, h.1⟩)
  · exact ⟨[], .id, .nil _ _, .inr rfl⟩

theorem getVars_code (m g c Γ) : ∀ (xs : List Var) (s : Comp), ∃ L, Code L (fun y => ∃ x ∈ xs, Src m Γ x y) (getVars xs m g c Γ s).1.2 ∧
    BvOk [] s.next (getVars xs m g c Γ s).2.next L ∧
    ∀ y ∈ (getVars xs m g c Γ s).1.1, y ∈ L ∨ ∃ x ∈ xs, Src m Γ x y
  | [], s => ⟨[], .id, .nil _ _, fun y h => by simp [getVars] at h⟩
  | x :: xs, s => by
    obtain ⟨L1, a1, a2, a3⟩ := getVar_code x m g c Γ s
    obtain ⟨L2, b1, b2, b3⟩ := getVars_code m g c Γ xs (getVar x m g c Γ s).2
    refine ⟨L1 ++ L2, ?_, ?_, ?_⟩
    · exact (a1.mono (fun y hy => ⟨x, by simp, hy⟩)).comp (b1.mono (fun y ⟨z, hz, hy⟩ => ⟨z, by simp [hz], hy⟩))
    · exact a2.append b2 (getVar_le x m g c Γ s).next (getVars_le xs m g c Γ _).next (fun _ h => by cases h)
        (fun _ h => by cases h) (fun _ h => by cases h)
    · intro y hy
      simp only [getVars, List.mem_cons] at hy
      rcases hy with rfl | hy
      · exact a3.imp (fun h => by simp [h]) (fun h => ⟨x, by simp, h⟩)
      · exact (b3 y hy).imp (fun h => by simp [h]) (fun ⟨z, hz, h⟩ => ⟨z, by simp [hz], h⟩)

/-- What is shown about the conversion of a term. -/
structure Good (e : Exp) (m : PMap VInfo) (Γ : Var) (G : List Var) (a b : Nat) (et : Exp) : Prop where
  bv : BvOk e.bv a b et.bv
  fns : fnE et = fnE e
  closed : et.FnsClosed G
  tags : et.caseTags = e.caseTags
  fv : ∀ y ∈ et.fv, ∃ x ∈ e.fv, Src m Γ x y

theorem src_bound {m : PMap VInfo} {Γ x z y : Var} (h : Src (m.set x .bound) Γ z y) (hy : y ≠ x) :
    z ≠ x ∧ Src m Γ z y := by
  by_cases hz : z = x
  · subst hz
    unfold Src at h; rw [pset_self] at h
    exact absurd h hy
  · unfold Src at h ⊢; rw [pset_other hz] at h
    exact ⟨hz, h⟩

/-- A global function is never read from the environment record. -/
def NoFvar (m : PMap VInfo) (g : Var → Bool) : Prop := ∀ x, g x = true → ∀ n, m x ≠ some (.fvar n)

theorem NoFvar.bound {m : PMap VInfo} {g x} (h : NoFvar m g) : NoFvar (m.set x .bound) g := by
  intro y hy n
  by_cases hyx : y = x
  · subst hyx; rw [pset_self]; simp
  · rw [pset_other hyx]; exact h y hy n

theorem NoFvar.params {m : PMap VInfo} {g} (h : NoFvar m g) : ∀ xs, NoFvar (addParams xs m) g
  | [] => h
  | _ :: xs => (h.params xs).bound

theorem NoFvar.closures {m : PMap VInfo} {g B b env} (h : NoFvar m g) : NoFvar (addClosures B m env) (addGFuns B g b) := by
  intro y hy n
  by_cases hyB : y ∈ B.names
  · rw [addClosures_mem hyB]; simp
  · rw [addClosures_not_mem hyB]; rw [addGFuns_not_mem hyB] at hy; exact h y hy n

theorem NoFvar.fvMap {g B} : NoFvar (fvMap (fvsOf g B)) g := by
  intro y hy n
  unfold Cc.fvMap
  rw [addFvs_not_mem]
  · simp [PMap.empty]
  · intro h; rw [(fvsOf_mem.mp h).2] at hy; cases hy

/-- One binding after some fetching code. -/
theorem good_bind {e e1 : Exp} {m : PMap VInfo} {Γ x : Var} {G L} {f : Exp → Exp} {a b b' : Nat} {et et1 : Exp} {ys : List Var}
    (hbv : e.bv = x :: e1.bv) (hfns : fnE e = fnE e1) (htags : e.caseTags = e1.caseTags)
    (hfv : ∀ y ∈ e1.fv, y ≠ x → y ∈ e.fv) (hys : ∀ y ∈ ys, y ∈ e.fv)
    (hf : Code L (fun y => ∃ x ∈ ys, Src m Γ x y) f) (hL : BvOk [] a b L) (hab : a ≤ b) (hbb : b ≤ b')
    (hn : e.bv.Nodup) (hlt : ∀ y ∈ e.bv, y < a)
    (h1 : Good e1 (m.set x .bound) Γ G b b' et1)
    (kbv : et.bv = x :: et1.bv) (kfns : fnE et = fnE et1) (kcl : et1.FnsClosed G → et.FnsClosed G)
    (ktags : et.caseTags = et1.caseTags)
    (kfv : ∀ y ∈ et.fv, (y ∈ L ∨ ∃ x ∈ ys, Src m Γ x y) ∨ (y ∈ et1.fv ∧ y ≠ x)) :
    Good e m Γ G a b' (f et) := by
  rw [hbv] at hn hlt
  have hn' := List.nodup_cons.mp hn
  refine ⟨?_, ?_, ?_, ?_, ?_⟩
  · rw [hf.bv, kbv, hbv]
    have h2 : BvOk (x :: e1.bv) b b' (x :: et1.bv) :=
      BvOk.append (BvOk.src (xs := [x]) (by simp) b) h1.bv (Nat.le_refl _) hbb (by simpa using hn'.1)
        (fun y hy => by have := hlt y (by simp at hy; simp [hy]); vomega)
        (fun y hy => by have := hlt y (by simp [hy]); vomega)
    exact hL.append h2 hab hbb (fun _ h => by cases h) (fun _ h => by cases h) hlt
  · rw [hf.fns, kfns, h1.fns, hfns]
  · exact hf.closed _ _ (kcl h1.closed)
  · rw [hf.tags, ktags, h1.tags, htags]
  · intro y hy
    rcases hf.fv _ y hy with ⟨z, hz, hs⟩ | ⟨hy1, hy2⟩
    · exact ⟨z, hys z hz, hs⟩
    rcases kfv y hy1 with (h | ⟨z, hz, hs⟩) | ⟨h, hyx⟩
    · exact absurd h hy2
    · exact ⟨z, hys z hz, hs⟩
    · obtain ⟨z, hz, hs⟩ := h1.fv y h
      obtain ⟨hzx, hs'⟩ := src_bound hs hyx
      exact ⟨z, hfv z hz hzx, hs'⟩

/-- What is shown about the conversion of a bundle. -/
structure GoodB (B0 B : Defs) (g : Var → Bool) (P : Var → Prop) (G : List Var) (a b : Nat) (Bt : Defs) : Prop where
  bv : BvOk B.bv a b Bt.bv
  fns : fnB Bt = fnB B
  closed : Bt.FnsClosed G
  tags : Bt.caseTags = B.caseTags
  fv : ∀ y ∈ Bt.fvRaw, y ∈ B0.names ∨ (P y ∧ g y = true)

/-- What is shown about the conversion of branches. -/
structure GoodBs (e : Brs) (m : PMap VInfo) (Γ : Var) (G : List Var) (a b : Nat) (et : Brs) : Prop where
  bv : BvOk e.bv a b et.bv
  fns : fnBs et = fnBs e
  closed : et.FnsClosed G
  tags : et.caseTags = e.caseTags
  fv : ∀ y ∈ et.fv, ∃ x ∈ e.fv, Src m Γ x y

theorem fnB_names : ∀ (B : Defs) x, x ∈ B.names → x ∈ fnB B := by
  intro B
  induction B using Defs.ind with
  | nil => intro x h; simp [Defs.names] at h
  | cons f ft xs e B ih =>
    intro x h
    simp only [Defs.names, List.mem_cons, fnB, List.mem_append] at h ⊢
    exact h.imp_right (fun h => .inr (ih x h))

mutual
theorem ccE_good (G : List Var) : ∀ (e : Exp) (m : PMap VInfo) (g : Var → Bool) c Γ (s : Comp), e.bv.Nodup → (∀ x ∈ e.bv, x < s.next) →
    NoFvar m g → (∀ x, g x = true → x ∈ G) → (∀ x ∈ fnE e, x ∈ G) →
    Good e m Γ G s.next (ccE e m g c Γ s).2.next (ccT e m g c Γ s)
  | .constr x t ys e, m, g, c, Γ, s, hn, hb, hm, hg, hf => by
    obtain ⟨L, l1, l2, l3⟩ := getVars_code m g c Γ ys s
    have hle := (getVars_le ys m g c Γ s).next
    refine good_bind (e1 := e) (x := x) (ys := ys) (et := .constr x t (getVars ys m g c Γ s).1.1
      (ccT e (m.set x .bound) g c Γ (getVars ys m g c Γ s).2)) rfl rfl rfl (fun y hy hyx => by simp [Exp.fv, hy, hyx])
      (fun y hy => by simp [Exp.fv, hy]) l1 l2 hle (ccE_le e _ _ _ _ _).next hn hb
      (ccE_good G e _ g c Γ _ (List.nodup_cons.mp hn).2 (fun y hy => by have := hb y (by simp [Exp.bv, hy]); vomega) hm.bound hg hf) rfl rfl
      (fun h => h) rfl ?_
    intro y hy
    simp only [Exp.fv, Finset.mem_union, List.mem_toFinset, Finset.mem_erase] at hy
    exact hy.imp (l3 y) (fun h => ⟨h.2, h.1⟩)
  | .case y bs, m, g, c, Γ, s, hn, hb, hm, hg, hf => by
    have h1 := ccBs_good G bs m g c Γ s hn hb hm hg hf
    obtain ⟨L, l1, l2, l3⟩ := getVar_code y m g c Γ (ccBs bs m g c Γ s).2
    have he : ccT (.case y bs) m g c Γ s = (getVar y m g c Γ (ccBs bs m g c Γ s).2).1.2
      (.case (getVar y m g c Γ (ccBs bs m g c Γ s).2).1.1 (ccBs bs m g c Γ s).1) := rfl
    rw [he]
    refine ⟨?_, ?_, ?_, ?_, ?_⟩
    · rw [l1.bv]
      refine (h1.bv.append l2 (ccBs_le bs m g c Γ s).next (getVar_le y m g c Γ _).next (fun _ _ h => by cases h) hb
        (fun _ h => by cases h)).perm List.perm_append_comm (fun x hx => by simpa [Exp.bv] using hx)
    · rw [l1.fns]; exact h1.fns
    · exact l1.closed _ _ h1.closed
    · rw [l1.tags]; exact h1.tags
    · intro z hz
      rcases l1.fv _ z hz with hs | ⟨hz1, hz2⟩
      · exact ⟨y, by simp [Exp.fv], hs⟩
      simp only [Exp.fv, Finset.mem_insert] at hz1
      rcases hz1 with rfl | hz1
      · rcases l3 with h | h
        · exact absurd h hz2
        · exact ⟨y, by simp [Exp.fv], h⟩
      · obtain ⟨x, hx, hs⟩ := h1.fv z hz1
        exact ⟨x, by simp [Exp.fv, hx], hs⟩
  | .proj x t n y e, m, g, c, Γ, s, hn, hb, hm, hg, hf => by
    obtain ⟨L, l1, l2, l3⟩ := getVar_code y m g c Γ s
    have hle := (getVar_le y m g c Γ s).next
    refine good_bind (e1 := e) (x := x) (ys := [y]) (et := .proj x t n (getVar y m g c Γ s).1.1
      (ccT e (m.set x .bound) g c Γ (getVar y m g c Γ s).2)) rfl rfl rfl (fun y hy hyx => by simp [Exp.fv, hy, hyx])
      (fun y hy => by simp at hy; simp [Exp.fv, hy]) (l1.mono (fun z hz => ⟨y, by simp, hz⟩)) l2 hle (ccE_le e _ _ _ _ _).next hn hb
      (ccE_good G e _ g c Γ _ (List.nodup_cons.mp hn).2 (fun y hy => by have := hb y (by simp [Exp.bv, hy]); vomega) hm.bound hg hf) rfl rfl
      (fun h => h) rfl ?_
    intro z hz
    simp only [Exp.fv, Finset.mem_insert, Finset.mem_erase] at hz
    refine hz.imp (fun h => ?_) (fun h => ⟨h.2, h.1⟩)
    subst h
    exact l3.imp_right (fun h => ⟨y, by simp, h⟩)
  | .letapp x f ft ys e, m, g, c, Γ, s, hn, hb, hm, hg, hf => by
    obtain ⟨L1, l1, l2, l3⟩ := getVar_code f m g c Γ s
    obtain ⟨L2, k1, k2, k3⟩ := getVars_code m g c Γ ys (getVar f m g c Γ s).2
    have hle1 := (getVar_le f m g c Γ s).next
    have hle2 := (getVars_le ys m g c Γ (getVar f m g c Γ s).2).next
    generalize hs2 : (getVars ys m g c Γ (getVar f m g c Γ s).2).2 = s2 at *
    generalize hys2 : (getVars ys m g c Γ (getVar f m g c Γ s).2).1.1 = ys2 at *
    generalize hf2 : (getVar f m g c Γ s).1.1 = f2 at *
    have he : ccT (.letapp x f ft ys e) m g c Γ s = (getVar f m g c Γ s).1.2
      ((getVars ys m g c Γ (getVar f m g c Γ s).2).1.2 (.proj s2.next cloTag 0 f2 (.proj (s2.next + 1) cloTag 1 f2
        (.letapp x s2.next ft ((s2.next + 1) :: ys2) (ccT e (m.set x .bound) g c Γ s2.bump.bump))))) := by
      rw [← hf2, ← hys2, ← hs2]; rfl
    have he2 : (ccE (.letapp x f ft ys e) m g c Γ s).2 = (ccE e (m.set x .bound) g c Γ s2.bump.bump).2 := by rw [← hs2]; rfl
    rw [he, he2]
    have hbb : s2.bump.bump.next = s2.next + 2 := rfl
    have hL := (l2.append k2 hle1 hle2 (fun _ h => by cases h) (fun _ h => by cases h) (fun _ h => by cases h)).append
      (BvOk.fresh2 s2.next) (by vomega) (by vomega) (fun _ h => by cases h) (fun _ h => by cases h) (fun _ h => by cases h)
    have hC : Code ((L1 ++ L2) ++ [s2.next, s2.next + 1]) (fun y => ∃ x ∈ f :: ys, Src m Γ x y) (fun e =>
        (getVar f m g c Γ s).1.2 ((getVars ys m g c Γ (getVar f m g c Γ s).2).1.2
          (.proj s2.next cloTag 0 f2 (.proj (s2.next + 1) cloTag 1 f2 e)))) := by
      have hc1 := (l1.mono (Q' := fun y => ∃ x ∈ f :: ys, Src m Γ x y) (fun y hy => ⟨f, by simp, hy⟩)).comp
        (k1.mono (fun y ⟨z, hz, hy⟩ => ⟨z, by simp [hz], hy⟩))
      refine ⟨fun e => by rw [l1.bv, k1.bv]; simp [Exp.bv], fun e => by rw [l1.fns, k1.fns]; rfl,
        fun e G hc => l1.closed _ _ (k1.closed _ _ hc), fun e => by rw [l1.tags, k1.tags]; rfl, fun e y hy => ?_⟩
      rcases hc1.fv _ y hy with h | ⟨h1, h2⟩
      · exact .inl h
      · simp only [Exp.fv, Finset.mem_insert, Finset.mem_erase] at h1
        have hf2' : y = f2 → ∃ x ∈ f :: ys, Src m Γ x y := by
          rintro rfl
          rcases l3 with h | h
          · exact absurd (by simp [h]) h2
          · exact ⟨f, by simp, h⟩
        rcases h1 with h1 | ⟨h3, h1 | ⟨h4, h1⟩⟩
        · exact .inl (hf2' h1)
        · exact .inl (hf2' h1)
        · simp only [List.mem_append, not_or] at h2
          exact .inr ⟨h1, by simp [h2, h3, h4]⟩
    refine good_bind (e := .letapp x f ft ys e) (e1 := e) (x := x) (ys := f :: ys) (b := s2.next + 2) (et := .letapp x s2.next ft ((s2.next + 1) :: ys2)
      (ccT e (m.set x .bound) g c Γ s2.bump.bump)) rfl rfl rfl (fun y hy hyx => by simp [Exp.fv, hy, hyx])
      (fun y hy => by simp at hy; rcases hy with hy | hy <;> simp [Exp.fv, hy]) hC hL (by vomega)
      (by have := (ccE_le e (m.set x .bound) g c Γ s2.bump.bump).next; vomega) hn hb
      (ccE_good G e _ g c Γ s2.bump.bump (List.nodup_cons.mp hn).2 (fun y hy => by have := hb y (by simp [Exp.bv, hy]); vomega)
        hm.bound hg hf) rfl rfl (fun h => h) rfl ?_
    intro z hz
    simp only [Exp.fv, Finset.mem_insert, Finset.mem_union, List.toFinset_cons, List.mem_toFinset, Finset.mem_erase] at hz
    rcases hz with hz | (hz | hz) | hz
    · exact .inl (.inl (by simp [hz]))
    · exact .inl (.inl (by simp [hz]))
    · exact .inl ((k3 z hz).imp (fun h => by simp [h]) (fun ⟨w, hw, h⟩ => ⟨w, by simp [hw], h⟩))
    · exact .inr ⟨hz.2, hz.1⟩
  | .fn B e, m, g, c, Γ, s, hn, hb, hm, hg, hf => by
    obtain ⟨L, l1, l2, l3⟩ := getVars_code m g c Γ (fvsOf g B) s.bump
    have hle1 := (getVars_le (fvsOf g B) m g c Γ s.bump).next
    generalize hs1 : (getVars (fvsOf g B) m g c Γ s.bump).2 = s1 at *
    generalize hg' : addGFuns B g (fvsOf g B).isEmpty = g'
    generalize hs2 : s1.record (addFvs (fvsOf g B) 0 PMap.empty).2 = s2
    have hle2 : s1.next = s2.next := by rw [← hs2]; rfl
    have hbump : s.bump.next = s.next + 1 := rfl
    have hle3 := (ccB_le B B (fvMap (fvsOf g B)) g' s1.ctag s2).next
    have hgG : ∀ x, g' x = true → x ∈ G := by
      intro x hx
      by_cases hxB : x ∈ B.names
      · exact hf x (by simp [fnE, fnB_names B x hxB])
      · rw [← hg', addGFuns_not_mem hxB] at hx; exact hg x hx
    have hnd := hn
    simp only [Exp.bv, List.nodup_append] at hnd
    have hbB : ∀ x ∈ B.bv, x < s.next := fun x hx => hb x (by simp [Exp.bv, hx])
    have hbe : ∀ x ∈ e.bv, x < s.next := fun x hx => hb x (by simp [Exp.bv, hx])
    have h1 := ccB_good G B B (fvsOf g B) g' s1.ctag s2 (fvsOf_nodup g B) hnd.1 (fun x hx => by have := hbB x hx; vomega)
      (fun xs Γ => by rw [← hg']; exact ((NoFvar.fvMap (g := g) (B := B)).closures).params xs) hgG
      (fun x hx => hf x (by simp [fnE, hx])) (fun x hx hxB hxf => by
        rw [← hg', addGFuns_not_mem hxB]
        by_contra hgx
        exact hxf (fvsOf_mem.mpr ⟨by simp only [Defs.fv, Finset.mem_sdiff, List.mem_toFinset]; exact ⟨hx, hxB⟩, by simpa using hgx⟩))
    have h2 := ccE_good G e (addClosures B m s.next) g' c Γ (ccB B B (fvMap (fvsOf g B)) g' s1.ctag s2).2 hnd.2.1
      (fun x hx => by have := hbe x hx; vomega) (by rw [← hg']; exact hm.closures) hgG (fun x hx => hf x (by simp [fnE, hx]))
    have hle4 := (ccE_le e (addClosures B m s.next) g' c Γ (ccB B B (fvMap (fvsOf g B)) g' s1.ctag s2).2).next
    have hnames : (ccB B B (fvMap (fvsOf g B)) g' s1.ctag s2).1.names = B.names := ccB_names _ _ _ _ _ _
    have he2 : (ccE (.fn B e) m g c Γ s).2 = (ccE e (addClosures B m s.next) g' c Γ
      (ccB B B (fvMap (fvsOf g B)) g' s1.ctag s2).2).2 := by rw [← hs2, ← hs1, ← hg']; rfl
    generalize hB' : ccB B B (fvMap (fvsOf g B)) g' s1.ctag s2 = B' at *
    have he : ccT (.fn B e) m g c Γ s = (getVars (fvsOf g B) m g c Γ s.bump).1.2
      (.constr s.next s1.ctag (getVars (fvsOf g B) m g c Γ s.bump).1.1
        (.fn B'.1 (ccT e (addClosures B m s.next) g' c Γ B'.2))) := by
      rw [← hB', ← hs2, ← hs1, ← hg']; rfl
    rw [he, he2]
    have hBfv : ∀ y ∈ B'.1.fvRaw, y ∉ B.names → y ∈ B.fv ∧ g y = true := by
      intro y hy hyB
      obtain ⟨k1, k2⟩ := (h1.fv y hy).resolve_left hyB
      refine ⟨by simp only [Defs.fv, Finset.mem_sdiff, List.mem_toFinset]; exact ⟨k1, hyB⟩, ?_⟩
      rw [← hg', addGFuns_not_mem hyB] at k2; exact k2
    have hfvB : ∀ x ∈ B.fv, x ∈ (Exp.fn B e).fv := by
      intro z hz
      simp only [Defs.fv, Finset.mem_sdiff] at hz
      simp only [Exp.fv, Finset.mem_sdiff, Finset.mem_union]
      exact ⟨.inl hz.1, hz.2⟩
    refine ⟨?_, ?_, ?_, ?_, ?_⟩
    · rw [l1.bv]
      simp only [Exp.bv]
      have q1 := h1.bv.append h2.bv hle3 hle4 (fun x hx hx' => hnd.2.2 x hx x hx' rfl)
        (fun x hx => by have := hbB x hx; vomega) (fun x hx => by have := hbe x hx; vomega)
      have q2 := l2.append (hle2 ▸ q1) hle1 (by vomega) (fun _ h => by cases h) (fun _ h => by cases h)
        (fun x hx => by have := hb x (by simpa [Exp.bv] using hx); vomega)
      have q3 := (BvOk.fresh s.next).append q2 (by vomega) (by vomega) (fun _ h => by cases h) (fun _ h => by cases h)
        (fun x hx => by have := hb x (by simpa [Exp.bv] using hx); vomega)
      exact q3.perm List.perm_middle (fun x hx => by simpa using hx)
    · rw [l1.fns]; simp only [fnE, h1.fns, h2.fns]
    · refine l1.closed _ _ ⟨?_, h1.closed, h2.closed⟩
      intro y hy
      simp only [Defs.fv, Finset.mem_sdiff, List.mem_toFinset, hnames] at hy
      exact hg y (hBfv y hy.1 hy.2).2
    · rw [l1.tags]; simp only [Exp.caseTags, h1.tags, h2.tags]
    · intro y hy
      rcases l1.fv _ y hy with ⟨z, hz, hs⟩ | ⟨hy1, hy2⟩
      · exact ⟨z, hfvB z (fvsOf_mem.mp hz).1, hs⟩
      simp only [Exp.fv, Finset.mem_union, List.mem_toFinset, Finset.mem_erase, Finset.mem_sdiff, hnames] at hy1
      rcases hy1 with hy1 | ⟨hyΓ, hy1 | hy1, hyB⟩
      · rcases l3 y hy1 with h | ⟨z, hz, hs⟩
        · exact absurd h hy2
        · exact ⟨z, hfvB z (fvsOf_mem.mp hz).1, hs⟩
      · obtain ⟨k1, k2⟩ := hBfv y hy1 hyB
        refine ⟨y, hfvB y k1, ?_⟩
        unfold Src
        rcases hmy : m y with _ | (n | env | _) <;> dsimp only
        · exact absurd hmy (hm y k2 n)
        · exact .inl rfl
      · obtain ⟨x, hx, hs⟩ := h2.fv y hy1
        unfold Src at hs
        by_cases hxB : x ∈ B.names
        · rw [addClosures_mem hxB] at hs
          rcases hs with rfl | rfl
          · exact absurd hxB hyB
          · exact absurd rfl hyΓ
        · rw [addClosures_not_mem hxB] at hs
          exact ⟨x, by simp [Exp.fv, hx, hxB], hs⟩
  | .app f ft ys, m, g, c, Γ, s, hn, hb, hm, hg, hf => by
    obtain ⟨L1, l1, l2, l3⟩ := getVar_code f m g c Γ s
    obtain ⟨L2, k1, k2, k3⟩ := getVars_code m g c Γ ys (getVar f m g c Γ s).2
    have hle1 := (getVar_le f m g c Γ s).next
    have hle2 := (getVars_le ys m g c Γ (getVar f m g c Γ s).2).next
    generalize hs2 : (getVars ys m g c Γ (getVar f m g c Γ s).2).2 = s2 at *
    generalize hys2 : (getVars ys m g c Γ (getVar f m g c Γ s).2).1.1 = ys2 at *
    generalize hf2 : (getVar f m g c Γ s).1.1 = f2 at *
    have he : ccT (.app f ft ys) m g c Γ s = (getVar f m g c Γ s).1.2
      ((getVars ys m g c Γ (getVar f m g c Γ s).2).1.2 (.proj s2.next cloTag 0 f2 (.proj (s2.next + 1) cloTag 1 f2
        (.app s2.next ft ((s2.next + 1) :: ys2))))) := by
      rw [← hf2, ← hys2, ← hs2]; rfl
    have he2 : (ccE (.app f ft ys) m g c Γ s).2 = s2.bump.bump := by rw [← hs2]; rfl
    rw [he, he2]
    have hbb : s2.bump.bump.next = s2.next + 2 := rfl
    have hL := (l2.append k2 hle1 hle2 (fun _ h => by cases h) (fun _ h => by cases h) (fun _ h => by cases h)).append
      (BvOk.fresh2 s2.next) (by vomega) (by vomega) (fun _ h => by cases h) (fun _ h => by cases h) (fun _ h => by cases h)
    refine ⟨?_, ?_, ?_, ?_, ?_⟩
    · rw [l1.bv, k1.bv]; simpa [Exp.bv, hbb] using hL
    · rw [l1.fns, k1.fns]; rfl
    · exact l1.closed _ _ (k1.closed _ _ trivial)
    · rw [l1.tags, k1.tags]; rfl
    · intro y hy
      rcases l1.fv _ y hy with h | ⟨h1, h2⟩
      · exact ⟨f, by simp [Exp.fv], h⟩
      rcases k1.fv _ y h1 with ⟨z, hz, h⟩ | ⟨h3, h4⟩
      · exact ⟨z, by simp [Exp.fv, hz], h⟩
      have hf2' : y = f2 → ∃ x ∈ (Exp.app f ft ys).fv, Src m Γ x y := by
        rintro rfl
        rcases l3 with h | h
        · exact absurd h h2
        · exact ⟨f, by simp [Exp.fv], h⟩
      simp only [Exp.fv, Finset.mem_insert, Finset.mem_erase, List.toFinset_cons, List.mem_toFinset] at h3
      rcases h3 with h3 | ⟨h3, h5 | ⟨h6, h7 | h7 | h7⟩⟩
      · exact hf2' h3
      · exact hf2' h5
      · exact absurd h7 h3
      · exact absurd h7 h6
      · rcases k3 y h7 with h | ⟨z, hz, h⟩
        · exact absurd h h4
        · exact ⟨z, by simp [Exp.fv, hz], h⟩
  | .primVal x p e, m, g, c, Γ, s, hn, hb, hm, hg, hf => by
    refine good_bind (f := id) (L := []) (e1 := e) (x := x) (ys := []) (et := .primVal x p
      (ccT e (m.set x .bound) g c Γ s)) rfl rfl rfl (fun y hy hyx => by simp [Exp.fv, hy, hyx])
      (fun y hy => by cases hy) .id (.nil _ _) (Nat.le_refl _) (ccE_le e _ _ _ _ _).next hn hb
      (ccE_good G e _ g c Γ s (List.nodup_cons.mp hn).2 (fun y hy => hb y (by simp [Exp.bv, hy])) hm.bound hg hf) rfl rfl
      (fun h => h) rfl ?_
    intro y hy
    simp only [Exp.fv, Finset.mem_erase] at hy
    exact .inr ⟨hy.2, hy.1⟩
  | .prim x p ys e, m, g, c, Γ, s, hn, hb, hm, hg, hf => by
    obtain ⟨L, l1, l2, l3⟩ := getVars_code m g c Γ ys s
    have hle := (getVars_le ys m g c Γ s).next
    refine good_bind (e1 := e) (x := x) (ys := ys) (et := .prim x p (getVars ys m g c Γ s).1.1
      (ccT e (m.set x .bound) g c Γ (getVars ys m g c Γ s).2)) rfl rfl rfl (fun y hy hyx => by simp [Exp.fv, hy, hyx])
      (fun y hy => by simp [Exp.fv, hy]) l1 l2 hle (ccE_le e _ _ _ _ _).next hn hb
      (ccE_good G e _ g c Γ _ (List.nodup_cons.mp hn).2 (fun y hy => by have := hb y (by simp [Exp.bv, hy]); vomega) hm.bound hg hf) rfl rfl
      (fun h => h) rfl ?_
    intro y hy
    simp only [Exp.fv, Finset.mem_union, List.mem_toFinset, Finset.mem_erase] at hy
    exact hy.imp (l3 y) (fun h => ⟨h.2, h.1⟩)
  | .halt x, m, g, c, Γ, s, hn, hb, hm, hg, hf => by
    obtain ⟨L1, l1, l2, l3⟩ := getVar_code x m g c Γ s
    have he : ccT (.halt x) m g c Γ s = (getVar x m g c Γ s).1.2 (.halt (getVar x m g c Γ s).1.1) := rfl
    rw [he]
    refine ⟨?_, ?_, ?_, ?_, ?_⟩
    · rw [l1.bv]; simp only [Exp.bv, List.append_nil]; exact l2
    · rw [l1.fns]; rfl
    · exact l1.closed _ _ trivial
    · rw [l1.tags]; rfl
    · intro y hy
      rcases l1.fv _ y hy with h | ⟨h1, h2⟩
      · exact ⟨x, by simp [Exp.fv], h⟩
      simp only [Exp.fv, Finset.mem_singleton] at h1
      subst h1
      rcases l3 with h | h
      · exact absurd h h2
      · exact ⟨x, by simp [Exp.fv], h⟩
theorem ccBs_good (G : List Var) : ∀ (bs : Brs) (m : PMap VInfo) (g : Var → Bool) c Γ (s : Comp), bs.bv.Nodup → (∀ x ∈ bs.bv, x < s.next) →
    NoFvar m g → (∀ x, g x = true → x ∈ G) → (∀ x ∈ fnBs bs, x ∈ G) →
    GoodBs bs m Γ G s.next (ccBs bs m g c Γ s).2.next (ccBs bs m g c Γ s).1
  | .nil, m, g, c, Γ, s, hn, hb, hm, hg, hf => ⟨.nil _ _, rfl, trivial, rfl, fun y hy => by simp [ccBs, Brs.fv] at hy⟩
  | .cons t e bs, m, g, c, Γ, s, hn, hb, hm, hg, hf => by
    have hnd := hn
    simp only [Brs.bv, List.nodup_append] at hnd
    have hle := (ccE_le e m g c Γ s).next
    have hle2 := (ccBs_le bs m g c Γ (ccE e m g c Γ s).2).next
    have h1 := ccE_good G e m g c Γ s hnd.1 (fun x hx => hb x (by simp [Brs.bv, hx])) hm hg (fun x hx => hf x (by simp [fnBs, hx]))
    have h2 := ccBs_good G bs m g c Γ (ccE e m g c Γ s).2 hnd.2.1
      (fun x hx => by have := hb x (by simp [Brs.bv, hx]); vomega) hm hg (fun x hx => hf x (by simp [fnBs, hx]))
    have he : (ccBs (.cons t e bs) m g c Γ s).1 = .cons t (ccT e m g c Γ s) (ccBs bs m g c Γ (ccE e m g c Γ s).2).1 := rfl
    rw [he]
    refine ⟨?_, ?_, ⟨h1.closed, h2.closed⟩, ?_, ?_⟩
    · exact h1.bv.append h2.bv hle hle2 (fun x hx hx' => hnd.2.2 x hx x hx' rfl)
        (fun x hx => hb x (by simp [Brs.bv, hx])) (fun x hx => hb x (by simp [Brs.bv, hx]))
    · simp only [fnBs, h1.fns, h2.fns]
    · simp only [Brs.caseTags, h1.tags, h2.tags]
    · intro y hy
      simp only [Brs.fv, Finset.mem_union] at hy
      rcases hy with hy | hy
      · obtain ⟨x, hx, hs⟩ := h1.fv y hy
        exact ⟨x, by simp [Brs.fv, hx], hs⟩
      · obtain ⟨x, hx, hs⟩ := h2.fv y hy
        exact ⟨x, by simp [Brs.fv, hx], hs⟩
theorem ccB_good (G : List Var) (B0 : Defs) : ∀ (B : Defs) (fvs : List Var) (g : Var → Bool) c (s : Comp), fvs.Nodup → B.bv.Nodup →
    (∀ x ∈ B.bv, x < s.next) → (∀ xs Γ, NoFvar (addParams xs (addClosures B0 (fvMap fvs) Γ)) g) → (∀ x, g x = true → x ∈ G) →
    (∀ x ∈ fnB B, x ∈ G) → (∀ x ∈ B.fvRaw, x ∉ B0.names → x ∉ fvs → g x = true) →
    GoodB B0 B g (fun y => y ∈ B.fvRaw) G s.next (ccB B0 B (fvMap fvs) g c s).2.next (ccB B0 B (fvMap fvs) g c s).1
  | .nil, fvs, g, c, s, hfn, hn, hb, hm, hg, hf, h0 => ⟨.nil _ _, rfl, trivial, rfl, fun y hy => by simp [ccB, Defs.fvRaw] at hy⟩
  | .cons f ft xs e B, fvs, g, c, s, hfn, hn, hb, hm, hg, hf, h0 => by
    have hnd := hn
    simp only [Defs.bv, List.nodup_cons, List.nodup_append, List.mem_append, not_or] at hnd
    obtain ⟨hf0, hxs, ⟨hee, hBB, heB⟩, hxr⟩ := hnd
    have hlt : ∀ x, (x = f ∨ x ∈ xs ∨ x ∈ e.bv ∨ x ∈ B.bv) → x < s.next := by
      intro x hx; refine hb x ?_
      simpa [Defs.bv] using hx
    have hbump : s.bump.next = s.next + 1 := rfl
    have h1 := ccE_good G e (addParams xs (addClosures B0 (fvMap fvs) s.next)) g c s.next s.bump hee
      (fun x hx => by have := hlt x (by simp [hx]); vomega) (hm _ _) hg (fun x hx => hf x (by simp [fnB, hx]))
    have hle1 := (ccE_le e (addParams xs (addClosures B0 (fvMap fvs) s.next)) g c s.next s.bump).next
    have he : (ccB B0 (.cons f ft xs e B) (fvMap fvs) g c s).1 = .cons f ft (s.next :: xs)
      (ccT e (addParams xs (addClosures B0 (fvMap fvs) s.next)) g c s.next s.bump)
      (ccB B0 B (fvMap fvs) g c (ccE e (addParams xs (addClosures B0 (fvMap fvs) s.next)) g c s.next s.bump).2).1 := rfl
    have he2 : (ccB B0 (.cons f ft xs e B) (fvMap fvs) g c s).2 =
      (ccB B0 B (fvMap fvs) g c (ccE e (addParams xs (addClosures B0 (fvMap fvs) s.next)) g c s.next s.bump).2).2 := rfl
    rw [he, he2]
    generalize hs1 : (ccE e (addParams xs (addClosures B0 (fvMap fvs) s.next)) g c s.next s.bump).2 = s1 at *
    have h2 := ccB_good G B0 B fvs g c s1 hfn hBB (fun x hx => by have := hlt x (by simp [hx]); vomega) hm hg
      (fun x hx => hf x (by simp [fnB, hx])) (fun x hx => h0 x (by simp [Defs.fvRaw, hx]))
    have hle2 := (ccB_le B0 B (fvMap fvs) g c s1).next
    refine ⟨?_, ?_, ⟨h1.closed, h2.closed⟩, ?_, ?_⟩
    · have q1 := h1.bv.append h2.bv hle1 hle2 (fun x hx hx' => heB x hx x hx' rfl)
        (fun x hx => by have := hlt x (by simp [hx]); vomega) (fun x hx => by have := hlt x (by simp [hx]); vomega)
      have q2 := (BvOk.src hxs s.bump.next).append q1 (Nat.le_refl _) (by vomega)
        (fun x hx hx' => hxr x hx x (List.mem_append.mp hx') rfl)
        (fun x hx => by have := hlt x (by simp [hx]); vomega)
        (fun x hx => by have := hlt x (by rcases List.mem_append.mp hx with h | h <;> simp [h]); vomega)
      have q3 := (BvOk.fresh s.next).append q2 (by vomega) (by vomega) (fun _ h => by cases h) (fun _ h => by cases h)
        (fun x hx => hlt x (.inr (by simpa using hx)))
      have q4 := (BvOk.src (xs := [f]) (by simp) s.next).append q3 (Nat.le_refl _) (by vomega)
        (fun x hx hx' => by simp at hx; subst hx; exact absurd hx' (by simpa using hf0))
        (fun x hx => hlt x (by simp at hx; simp [hx])) (fun x hx => hlt x (.inr (by simpa using hx)))
      exact q4
    · simp only [fnB, h1.fns, h2.fns]
    · simp only [Defs.caseTags, h1.tags, h2.tags]
    · intro y hy
      simp only [Defs.fvRaw, Finset.mem_union, Finset.mem_sdiff, List.mem_toFinset, List.mem_cons, not_or] at hy
      rcases hy with ⟨hy, hyΓ, hyxs⟩ | hy
      · obtain ⟨x, hx, hs⟩ := h1.fv y hy
        unfold Src at hs
        by_cases hxx : x ∈ xs
        · rw [addParams_mem hxx] at hs
          exact absurd (hs ▸ hxx) hyxs
        · rw [addParams_not_mem hxx] at hs
          by_cases hxB : x ∈ B0.names
          · rw [addClosures_mem hxB] at hs
            rcases hs with rfl | rfl
            · exact .inl hxB
            · exact absurd rfl hyΓ
          · rw [addClosures_not_mem hxB] at hs
            have hxr : x ∈ (Defs.cons f ft xs e B).fvRaw := by simp [Defs.fvRaw, hx, hxx]
            by_cases hxf : x ∈ fvs
            · obtain ⟨i, hi⟩ := List.mem_iff_getElem?.mp hxf
              rw [fvMap, addFvs_nth _ _ _ hfn i x hi] at hs
              exact absurd hs hyΓ
            · rw [fvMap, addFvs_not_mem _ _ _ _ hxf] at hs
              have hyx : y = x := hs
              subst hyx
              exact .inr ⟨hxr, h0 y hxr hxB hxf⟩
      · exact (h2.fv y hy).imp_right (fun ⟨a, b⟩ => ⟨by simp [Defs.fvRaw, a], b⟩)
end

end Cc
end ANF
