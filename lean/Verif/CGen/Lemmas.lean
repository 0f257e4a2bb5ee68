import Verif.CGen.Spec

/-! # Representation lemmas for the C backend -/

set_option linter.constructorNameAsVariable false

namespace CGen

open ANF

variable {G : HeapI} {cenv : Ctor.PMap Ctor.Info} {B : Defs}

/-- A list of witnesses. -/
theorem exists_list {α : Type} {P : Nat → α → Prop} : ∀ (n : Nat), (∀ k, k < n → ∃ a, P k a) →
    ∃ as : List α, as.length = n ∧ ∀ (k : Nat) a, as[k]? = some a → P k a := by
  intro n
  induction n with
  | zero => intro _; exact ⟨[], rfl, fun k a h => by simp at h⟩
  | succ n ih =>
    intro h
    obtain ⟨as, hl, ha⟩ := ih (fun k hk => h k (by omega))
    obtain ⟨a, hn⟩ := h n (by omega)
    refine ⟨as ++ [a], by simp [hl], ?_⟩
    intro k b hb
    rcases Nat.lt_or_ge k n with hk | hk
    · rw [List.getElem?_append_left (by omega)] at hb
      exact ha k b hb
    · rw [List.getElem?_append_right (by omega), hl] at hb
      have hk0 : k - n = 0 := by
        by_contra hc
        rw [List.getElem?_eq_none (by simp; omega)] at hb
        cases hb
      rw [hk0] at hb
      simp only [List.getElem?_cons_zero, Option.some.injEq] at hb
      have : k = n := by omega
      rw [this, ← hb]
      exact hn

theorem encodeList_length : ∀ (s : List Nat), (encodeList s).length = s.length / 8 + 1
  | [] | [_] | [_, _] | [_, _, _] | [_, _, _, _] | [_, _, _, _, _] | [_, _, _, _, _, _] | [_, _, _, _, _, _, _] => by
    simp [encodeList]
  | _ :: _ :: _ :: _ :: _ :: _ :: _ :: _ :: l => by
    simp only [encodeList, List.length_cons, encodeList_length l]
    omega

/-- Changing the free interval only, and shrinking it, keeps representations. -/
theorem VRep.mono {mem mem' : Nat → Option CVal} {lo hi lo' hi' : Nat} (hlo : lo ≤ lo') (hhi : hi' ≤ hi)
    (hm : ∀ a, a < lo ∨ hi ≤ a → mem' a = mem a) (hob : ∀ p, G.obj mem lo hi p → G.obj mem' lo' hi' p) {v c}
    (h : VRep G cenv B mem lo hi v c) : VRep G cenv B mem' lo' hi' v c := by
  induction h with
  | enum a b => exact .enum a b
  | boxed a b c o m l f _ ob ih =>
    obtain ⟨o1, o2⟩ := o
    refine .boxed a b c ⟨o1, by omega⟩ (by rw [hm _ (by omega)]; exact m) l (fun k x hk => ?_) ih (hob _ ob)
    have := (List.getElem?_eq_some_iff.mp hk).1
    rw [hm _ (by omega)]; exact f k x hk
  | int => exact .int
  | float o m f ob =>
    obtain ⟨o1, o2⟩ := o
    exact .float ⟨o1, by omega⟩ (by rw [hm _ (by omega)]; exact m) (by rw [hm _ (by omega)]; exact f) (hob _ ob)
  | str o m f ob =>
    obtain ⟨o1, o2⟩ := o
    refine .str ⟨o1, by omega⟩ (by rw [hm _ (by omega)]; exact m) (fun k w hk => ?_) (hob _ ob)
    have := (List.getElem?_eq_some_iff.mp hk).1
    rw [encodeList_length] at this
    rw [hm _ (by omega)]; exact f k w hk
  | fn h => exact .fn h

/-- A collection keeps representations. -/
theorem Forwards.rep (hc : CtorsOk cenv) {mem mem' : Nat → Option CVal} {lo hi lo' hi' : Nat} {R}
    (hF : Forwards G mem mem' lo' hi' R) {v c} (h : VRep G cenv B mem lo hi v c) :
    ∀ {c'}, R c c' → VRep G cenv B mem' lo' hi' v c' := by
  induction h with
  | enum a b => intro c' hr; rw [hF.int _ _ hr]; exact .enum a b
  | @boxed t i vs p cs a b c o m l f r _ ih =>
    intro c' hr
    have hs := hc.small t i a (by omega)
    have hq : (((i.arity * 1024 + i.ordinal : Int)) / 1024).toNat = vs.length := by omega
    obtain ⟨p', rfl, hm', ho', hob', hf'⟩ := hF.ptr p c' _ hr m (by omega)
    rw [hq] at ho' hf'
    have hmod : ((i.arity * 1024 + i.ordinal : Int)) % 256 < 251 := by omega
    obtain ⟨ds, hdl, hds⟩ := exists_list (P := fun k d => mem' (p' + k) = some d ∧ ∀ x, cs[k]? = some x → R x d)
      vs.length (by
        intro k hk
        have hck := List.getElem?_eq_getElem (l := cs) (i := k) (by omega)
        obtain ⟨d, hd1, hd2⟩ := hf' k _ hk (f k _ hck)
        rw [if_pos hmod] at hd2
        refine ⟨d, hd1, fun x hx => ?_⟩
        rw [hck] at hx
        cases hx
        exact hd2)
    refine .boxed a b c ho' hm' hdl (fun k d hd => (hds k d hd).1) ?_ hob'
    intro k w d hw hd
    have hk := (List.getElem?_eq_some_iff.mp hw).1
    have hck := List.getElem?_eq_getElem (l := cs) (i := k) (by omega)
    exact ih k w _ hw hck ((hds k d hd).2 _ hck)
  | int => intro c' hr; rw [hF.int _ _ hr]; exact .int
  | @float b p o m f _ =>
    intro c' hr
    obtain ⟨p', rfl, hm', ho', hob', hf'⟩ := hF.ptr p c' _ hr m (by omega)
    obtain ⟨d, hd1, hd2⟩ := hf' 0 (.raw b) (by omega) f
    rw [if_neg (by omega)] at hd2
    subst hd2
    exact .float ho' hm' hd1 hob'
  | @str s p o m f _ =>
    intro c' hr
    have hq : ((((s.length : Int) / 8 + 1) * 1024 + 252 : Int) / 1024).toNat = s.length / 8 + 1 := by omega
    obtain ⟨p', rfl, hm', ho', hob', hf'⟩ := hF.ptr p c' _ hr m (by omega)
    rw [hq] at ho' hf'
    refine .str ho' hm' (fun k w hk => ?_) hob'
    have hlt := (List.getElem?_eq_some_iff.mp hk).1
    rw [encodeList_length] at hlt
    obtain ⟨d, hd1, hd2⟩ := hf' k _ hlt (f k w hk)
    rw [if_neg (by omega)] at hd2
    subst hd2
    exact hd1
  | fn h => intro c' hr; rw [hF.fn _ _ hr]; exact .fn h

/-- All frames on the chain belong to activations below depth `d`. -/
def Below (d : Nat) (h : Th) : Prop := ∀ k, OnChain h k → k < d

theorem Below.mono {d d' h} (hb : Below d h) (hd : d ≤ d') : Below d' h := fun k hk => Nat.lt_of_lt_of_le (hb k hk) hd

/-- The chain only depends on `fp` and the `prev` fields of the frames on it. -/
theorem OnChain.congr {h h' : Th} (hfp : h'.fp = h.fp) {d} (hb : Below d h)
    (hp : ∀ k, k < d → (h'.frames k).prev = (h.frames k).prev) {k} (hk : OnChain h k) : OnChain h' k := by
  induction hk with
  | top e => exact .top (hfp.trans e)
  | step hk e ih => exact .step ih (by rw [hp _ (hb _ hk)]; exact e)

theorem OnChain.congr' {h h' : Th} (hfp : h'.fp = h.fp) {d} (hb : Below d h)
    (hp : ∀ k, k < d → (h'.frames k).prev = (h.frames k).prev) {k} (hk : OnChain h' k) : OnChain h k := by
  induction hk with
  | top e => exact .top (hfp.symm.trans e)
  | step hk e ih => exact .step ih (by rw [← hp _ (hb _ ih)]; exact e)

theorem Keeps.chain {d h h'} (hk : Keeps G cenv B d h h') (hb : Below d h) {k} : OnChain h' k ↔ OnChain h k :=
  ⟨OnChain.congr' hk.fp hb hk.prev, OnChain.congr hk.fp hb hk.prev⟩

theorem Keeps.below {d h h'} (hk : Keeps G cenv B d h h') (hb : Below d h) : Below d h' :=
  fun k h => hb k ((hk.chain hb).1 h)

theorem Keeps.refl {d h} : Keeps G cenv B d h h :=
  ⟨rfl, fun _ _ => rfl, fun _ _ => Nat.le_refl _, fun _ _ => rfl, fun _ _ _ _ _ c _ hc hr => ⟨c, hc, hr⟩⟩

theorem Keeps.trans {d h h' h''} (hb : Below d h) (a : Keeps G cenv B d h h') (b : Keeps G cenv B d h' h'') :
    Keeps G cenv B d h h'' := by
  refine ⟨b.fp.trans a.fp, fun k hk => (b.size k hk).trans (a.size k hk), fun k hk => (a.next k hk).trans (b.next k hk),
    fun k hk => (b.prev k hk).trans (a.prev k hk), ?_⟩
  intro k hk hch i hi c v hc hr
  obtain ⟨c', hc', hr'⟩ := a.roots k hk hch i hi c v hc hr
  exact b.roots k hk ((a.chain hb).2 hch) i (Nat.lt_of_lt_of_le hi (a.next k hk)) c' v hc' hr'

theorem Keeps.lower {d d' h h'} (hd : d ≤ d') (a : Keeps G cenv B d' h h') : Keeps G cenv B d h h' :=
  ⟨a.fp, fun k hk => a.size k (by omega), fun k hk => a.next k (by omega), fun k hk => a.prev k (by omega),
    fun k hk => a.roots k (by omega)⟩

/-- Steps that touch neither frames nor objects keep everything. -/
theorem Keeps.of_frames {d} {h h' : Th} (hfp : h'.fp = h.fp) (hf : ∀ k, k < d → h'.frames k = h.frames k)
    (hr : ∀ v c, h.Rep G cenv B v c → h'.Rep G cenv B v c) : Keeps G cenv B d h h' := by
  refine ⟨hfp, fun k hk => by rw [hf k hk], fun k hk => by rw [hf k hk], fun k hk => by rw [hf k hk], ?_⟩
  intro k hk _ i _ c v hc hv
  exact ⟨c, by rw [hf k hk]; exact hc, hr v c hv⟩

/-- Whether the collector may be called depends on the heap and the frames on the chain only. -/
theorem Th.Ok.sub {h h' : Th} (ok : h.Ok G cenv B) (hm : h'.mem = h.mem) (ha : h'.alloc = h.alloc) (hl : h'.limit = h.limit)
    (hc : ∀ k, OnChain h' k → OnChain h k ∧ h'.frames k = h.frames k) : h'.Ok G cenv B := by
  refine ⟨by rw [hm, ha, hl]; exact ok.heap, ?_, ?_, ?_⟩
  · intro k hk; rw [(hc k hk).2]; exact ok.size k (hc k hk).1
  · intro k hk; rw [(hc k hk).2]; exact ok.down k (hc k hk).1
  · intro k hk i hi
    rw [(hc k hk).2] at hi ⊢
    obtain ⟨c, v, h1, h2⟩ := ok.roots k (hc k hk).1 i hi
    exact ⟨c, v, h1, by unfold Th.Rep; rw [hm, ha, hl]; exact h2⟩

/-- A collection keeps everything. -/
theorem GcOk.keeps {W} (hc : CtorsOk cenv) (hW : GcOk G cenv B W) {h} (ok : h.Ok G cenv B) (d : Nat) : W.gc h = .abort ∨
    ∃ h', W.gc h = .ok h' ∧ Keeps G cenv B d h h' ∧ h'.alloc + h.nalloc ≤ h'.limit ∧ h'.Ok G cenv B := by
  rcases hW h ok with e | ⟨h', e, h1, h2, h3, h4, R, hF, hR⟩
  · exact .inl e
  have hch : ∀ k, OnChain h' k → OnChain h k := by
    intro k hk
    induction hk with
    | top e => exact .top (h2.symm.trans e)
    | step _ e ih => exact .step ih ((h3 _).2.2.symm.trans e)
  refine .inr ⟨h', e, ⟨h2, fun k _ => (h3 k).1, fun k _ => Nat.le_of_eq (h3 k).2.1.symm, fun k _ => (h3 k).2.2, ?_⟩, h1,
    h4, ?_, ?_, ?_⟩
  · intro k _ hch i hi c v hcv hv
    obtain ⟨c', hc', hr⟩ := hR k hch i hi c hcv
    exact ⟨c', hc', hF.rep hc hv hr⟩
  · intro k hk; rw [(h3 k).1, (h3 k).2.1]; exact ok.size k (hch k hk)
  · intro k hk; rw [(h3 k).2.2]; exact ok.down k (hch k hk)
  · intro k hk i hi
    rw [(h3 k).2.1] at hi
    obtain ⟨c, v, e1, e2⟩ := ok.roots k (hch k hk) i hi
    obtain ⟨c', hc', hr⟩ := hR k (hch k hk) i hi c e1
    exact ⟨c', v, hc', hF.rep hc e2 hr⟩

end CGen
