import Verif.Reify.Spec
import Verif.CGen.Lemmas

/-!
# Reading results back: lemmas
-/

namespace Reify

open CGen (CVal HeapI VRep encodeList encodeList_length)
open Ctor (specOrdinal)

theorem findAux_count {p : List Decl → Bool} : ∀ {cs : List (List Decl)} {j : Nat} {c : List Decl} (i k : Nat), cs[j]? = some c → p c = true →
    findAux p ((k + ((cs.take j).countP p) : Nat) : Int) cs i k = some (i + j)
  | [], _, _, _, _, h, _ => by simp at h
  | d :: cs, 0, c, i, k, h, hp => by
    simp only [List.getElem?_cons_zero, Option.some.injEq] at h
    subst h
    simp [findAux, hp]
  | d :: cs, j + 1, c, i, k, h, hp => by
    simp only [List.getElem?_cons_succ] at h
    rw [List.take_succ_cons, findAux]
    split
    · next hd =>
      rw [List.countP_cons_of_pos hd, if_neg (by omega), show k + ((cs.take j).countP p + 1) = (k + 1) + (cs.take j).countP p by omega,
        findAux_count (i + 1) (k + 1) h hp]
      congr 1
      omega
    · next hd =>
      rw [List.countP_cons_of_neg hd, findAux_count (i + 1) k h hp]
      congr 1
      omega

theorem mapM_get {α β : Type} {f : α → Option β} : ∀ {l : List α}, (∀ x ∈ l, (f x).isSome) →
    ∃ l', l.mapM f = some l' ∧ l'.length = l.length ∧ ∀ (j : Nat) x, l[j]? = some x → l'[j]? = f x
  | [], _ => ⟨[], by simp⟩
  | x :: l, h => by
    obtain ⟨y, hy⟩ := Option.isSome_iff_exists.1 (h x List.mem_cons_self)
    obtain ⟨l', h1, h2, h3⟩ := mapM_get (f := f) (l := l) fun z hz => h z (List.mem_cons_of_mem _ hz)
    refine ⟨y :: l', by simp [hy, h1], by simp [h2], ?_⟩
    rintro (_ | j) z hz
    · simp only [List.getElem?_cons_zero, Option.some.injEq] at hz
      subst hz
      simp [hy]
    · simp only [List.getElem?_cons_succ] at hz ⊢
      exact h3 j z hz

theorem idxOf_get {l : List Nat} (h : l.Nodup) {j x : Nat} (hj : l[j]? = some x) : l.idxOf x = j := by
  obtain ⟨hl, rfl⟩ := List.getElem?_eq_some_iff.1 hj
  exact h.idxOf_getElem j hl

/-- The mapping for type `i` with `n` constructors, if there is one. -/
def MapOk (im : Mapping) (i n : Nat) : Prop := ∀ tags, im.lookup i = some tags → Reorders tags n

theorem reordered {im : Mapping} {i : Nat} {cs : List (List Decl)} (him : MapOk im i cs.length) (f : List Decl → List Decl) :
    ∃ cs', applyReordering i im (cs.map f) = some cs' ∧ cs'.length = cs.length ∧
      (∀ (c : Nat) ds, cs[c]? = some ds → cs'[position im i c]? = some (f ds)) ∧
      ∀ j < cs.length, ∃ c ds, cs[c]? = some ds ∧ position im i c = j := by
  unfold applyReordering position
  cases hl : im.lookup i with
  | none =>
    refine ⟨_, rfl, by simp, fun c ds h => by simp [h], fun j hj => ⟨j, cs[j], by simp [hj], rfl⟩⟩
  | some tags =>
    have hp := him tags hl
    have hn : tags.Nodup := hp.nodup_iff.2 List.nodup_range
    have hlen : tags.length = cs.length := by rw [hp.length_eq, List.length_range]
    have hmem : ∀ {x}, x ∈ tags ↔ x < cs.length := fun {x} => by rw [hp.mem_iff, List.mem_range]
    obtain ⟨cs', h1, h2, h3⟩ := mapM_get (f := fun c => (cs.map f)[c]?) (l := tags) fun x hx => by
      have := hmem.1 hx
      simp [this]
    refine ⟨cs', h1, h2.trans hlen, fun c ds h => ?_, fun j hj => ?_⟩
    · obtain ⟨hc, -⟩ := List.getElem?_eq_some_iff.1 h
      have := h3 (tags.idxOf c) c (by
        have hi : tags.idxOf c < tags.length := List.idxOf_lt_length_of_mem (hmem.2 hc)
        rw [List.getElem?_eq_getElem hi, List.getElem_idxOf])
      rw [this]
      simp [h]
    · have hj' : j < tags.length := hlen ▸ hj
      have hx : tags[j] < cs.length := hmem.1 (List.getElem_mem hj')
      exact ⟨tags[j], cs[tags[j]], by simp [hx], idxOf_get hn (by simp [hj'])⟩

theorem filter_length {α : Type} (p : α → Bool) (l : List α) : (l.filter p).length = l.countP p := (List.countP_eq_length_filter ..).symm

theorem countP_congr_map {α β : Type} {p : α → Bool} {q : β → Bool} {l : List α} {l' : List β} (h : l.map p = l'.map q) (j : Nat) :
    (l.take j).countP p = (l'.take j).countP q := by
  have h1 : ∀ {γ : Type} (r : γ → Bool) (m : List γ), m.countP r = (m.map r).countP id := fun r m => by rw [List.countP_map]; rfl
  rw [h1 p, h1 q, List.map_take, List.map_take, h]

/-- The constructors of a type with their arguments instantiated. -/
def inst (ps : List Ty) (c : List Decl) : List Decl := c.map fun d => ⟨d.isLet, d.ty.subst ps⟩

theorem inst_filter (ps : List Ty) (c : List Decl) :
    (inst ps c).filter (fun d => !d.isLet) = (c.filter fun d => !d.isLet).map fun d => ⟨d.isLet, d.ty.subst ps⟩ := by
  unfold inst
  rw [List.filter_map]
  rfl

theorem inst_empty (ps : List Ty) (c : List Decl) : (inst ps c).isEmpty = c.isEmpty := by
  cases c <;> rfl

/-- The ordinal of a constructor, from the two lists of constructors. -/
theorem ordinal_count {im : Mapping} {i : Nat} {D : IDecl} {ps : List Ty} {cs' : List (List Decl)} {t : Ctor.Ityp}
    (hD : D.Plain) (hlen : cs'.length = D.ctors.length) (hpos : ∀ (c : Nat) ds, D.ctors[c]? = some ds → cs'[position im i c]? = some (inst ps ds))
    (hcov : ∀ j < D.ctors.length, ∃ c ds, D.ctors[c]? = some ds ∧ position im i c = j) (hl : t.ctors.length = D.ctors.length)
    (ha : ∀ (c : Nat) ds, D.ctors[c]? = some ds → ∃ k, t.ctors[position im i c]? = some k ∧ k.arity = nargs ds)
    {c : Nat} {ds : List Decl} (hc : D.ctors[c]? = some ds) :
    specOrdinal t.ctors (position im i c) = (cs'.take (position im i c)).countP (fun c => if nargs ds = 0 then c.isEmpty else !c.isEmpty) := by
  have key : ∀ j (h : j < D.ctors.length), decide ((t.ctors[j]'(hl ▸ h)).arity = 0) = (cs'[j]'(hlen ▸ h)).isEmpty := by
    intro j h
    obtain ⟨c, ds, h1, rfl⟩ := hcov j h
    obtain ⟨k, h2, h3⟩ := ha c ds h1
    have h4 := hpos c ds h1
    obtain ⟨_, h2⟩ := List.getElem?_eq_some_iff.1 h2
    obtain ⟨_, h4⟩ := List.getElem?_eq_some_iff.1 h4
    rw [h2, h4, h3, inst_empty, Bool.eq_iff_iff, decide_eq_true_iff, List.isEmpty_iff]
    exact ⟨hD ds (List.mem_of_getElem? h1), fun h => by subst h; rfl⟩
  have key1 : t.ctors.map (fun d => decide (d.arity = 0)) = cs'.map List.isEmpty := by
    refine List.ext_getElem (by simp [hl, hlen]) fun j h1 h2 => ?_
    simp only [List.length_map] at h1
    simp only [List.getElem_map]
    exact key j (hl ▸ h1)
  have key2 : t.ctors.map (fun d => decide (d.arity ≠ 0)) = cs'.map (fun c => !c.isEmpty) := by
    have := congrArg (List.map not) key1
    rw [List.map_map, List.map_map] at this
    simpa [Function.comp_def] using this
  obtain ⟨k, h2, h3⟩ := ha c ds hc
  unfold specOrdinal
  rw [h2]
  simp only
  rw [h3]
  split
  · rw [filter_length]
    exact countP_congr_map key1 _
  · rw [filter_length]
    exact countP_congr_map key2 _

theorem bytes_ok {w a b c d e f g h : Nat} (ha : a < 256) (hb : b < 256) (hc : c < 256) (hd : d < 256) (he : e < 256) (hf : f < 256) (hg : g < 256)
    (hh : h < 256) (hw : w = a + 2 ^ 8 * b + 2 ^ 16 * c + 2 ^ 24 * d + 2 ^ 32 * e + 2 ^ 40 * f + 2 ^ 48 * g + 2 ^ 56 * h) :
    bytesOf w = [a, b, c, d, e, f, g, h] := by
  subst hw
  unfold bytesOf
  simp only [List.cons.injEq, and_true]
  refine ⟨?_, ?_, ?_, ?_, ?_, ?_, ?_, ?_⟩ <;> omega

theorem encode_bytes : ∀ (s : List Nat), (∀ c ∈ s, c < 256) →
    ∃ pad z, (encodeList s).flatMap bytesOf = s ++ pad ++ [z] ∧ pad.length = z
  | [], _ => ⟨[0, 0, 0, 0, 0, 0, 0], 7, by decide, rfl⟩
  | [a], h => by
    simp only [List.mem_cons, List.not_mem_nil, or_false, forall_eq_or_imp, forall_eq] at h
    refine ⟨[0, 0, 0, 0, 0, 0], 6, ?_, rfl⟩
    simp only [encodeList, List.flatMap_cons, List.flatMap_nil]
    rw [bytes_ok h (by decide : 0 < 256) (by decide : 0 < 256) (by decide : 0 < 256) (by decide : 0 < 256) (by decide : 0 < 256) (by decide : 0 < 256)
      (by decide : 6 < 256) (by omega)]
    rfl
  | [a, b], h => by
    simp only [List.mem_cons, List.not_mem_nil, or_false, forall_eq_or_imp, forall_eq] at h
    refine ⟨[0, 0, 0, 0, 0], 5, ?_, rfl⟩
    simp only [encodeList, List.flatMap_cons, List.flatMap_nil]
    rw [bytes_ok h.1 h.2 (by decide : 0 < 256) (by decide : 0 < 256) (by decide : 0 < 256) (by decide : 0 < 256) (by decide : 0 < 256)
      (by decide : 5 < 256) (by omega)]
    rfl
  | [a, b, c], h => by
    simp only [List.mem_cons, List.not_mem_nil, or_false, forall_eq_or_imp, forall_eq] at h
    refine ⟨[0, 0, 0, 0], 4, ?_, rfl⟩
    simp only [encodeList, List.flatMap_cons, List.flatMap_nil]
    rw [bytes_ok h.1 h.2.1 h.2.2 (by decide : 0 < 256) (by decide : 0 < 256) (by decide : 0 < 256) (by decide : 0 < 256)
      (by decide : 4 < 256) (by omega)]
    rfl
  | [a, b, c, d], h => by
    simp only [List.mem_cons, List.not_mem_nil, or_false, forall_eq_or_imp, forall_eq] at h
    refine ⟨[0, 0, 0], 3, ?_, rfl⟩
    simp only [encodeList, List.flatMap_cons, List.flatMap_nil]
    rw [bytes_ok h.1 h.2.1 h.2.2.1 h.2.2.2 (by decide : 0 < 256) (by decide : 0 < 256) (by decide : 0 < 256)
      (by decide : 3 < 256) (by omega)]
    rfl
  | [a, b, c, d, e], h => by
    simp only [List.mem_cons, List.not_mem_nil, or_false, forall_eq_or_imp, forall_eq] at h
    refine ⟨[0, 0], 2, ?_, rfl⟩
    simp only [encodeList, List.flatMap_cons, List.flatMap_nil]
    rw [bytes_ok h.1 h.2.1 h.2.2.1 h.2.2.2.1 h.2.2.2.2 (by decide : 0 < 256) (by decide : 0 < 256) (by decide : 2 < 256) (by omega)]
    rfl
  | [a, b, c, d, e, f], h => by
    simp only [List.mem_cons, List.not_mem_nil, or_false, forall_eq_or_imp, forall_eq] at h
    refine ⟨[0], 1, ?_, rfl⟩
    simp only [encodeList, List.flatMap_cons, List.flatMap_nil]
    rw [bytes_ok h.1 h.2.1 h.2.2.1 h.2.2.2.1 h.2.2.2.2.1 h.2.2.2.2.2 (by decide : 0 < 256) (by decide : 1 < 256) (by omega)]
    rfl
  | [a, b, c, d, e, f, g], h => by
    simp only [List.mem_cons, List.not_mem_nil, or_false, forall_eq_or_imp, forall_eq] at h
    refine ⟨[], 0, ?_, rfl⟩
    simp only [encodeList, List.flatMap_cons, List.flatMap_nil]
    rw [bytes_ok h.1 h.2.1 h.2.2.1 h.2.2.2.1 h.2.2.2.2.1 h.2.2.2.2.2.1 h.2.2.2.2.2.2 (by decide : 0 < 256) (by omega)]
    rfl
  | a :: b :: c :: d :: e :: f :: g :: i :: l, h => by
    obtain ⟨pad, z, h1, h2⟩ := encode_bytes l fun x hx => h x (by simp [hx])
    refine ⟨pad, z, ?_, h2⟩
    simp only [List.mem_cons, forall_eq_or_imp] at h
    simp only [encodeList, List.flatMap_cons, h1]
    rw [bytes_ok h.1 h.2.1 h.2.2.1 h.2.2.2.1 h.2.2.2.2.1 h.2.2.2.2.2.1 h.2.2.2.2.2.2.1 h.2.2.2.2.2.2.2.1 rfl]
    rfl

theorem stringOf_encode {s : List Nat} (h : ∀ c ∈ s, c < 256) : stringOf (encodeList s) = s := by
  obtain ⟨pad, z, h1, h2⟩ := encode_bytes s h
  unfold stringOf
  simp only [h1]
  rw [List.getLastD_concat, List.length_append, List.length_append, List.length_singleton,
    show s.length + pad.length + 1 - 1 - z = s.length by omega, List.append_assoc, List.take_left']
  rfl

theorem readWords_ok {mem : Nat → Option CVal} : ∀ {ws : List Nat} {p : Nat}, (∀ (k : Nat) w, ws[k]? = some w → mem (p + k) = some (.raw w)) →
    readWords mem ws.length p = some ws
  | [], _, _ => rfl
  | w :: ws, p, h => by
    have h0 := h 0 w rfl
    rw [List.length_cons, readWords, show p = p + 0 from rfl, h0]
    simp only [Nat.add_zero]
    rw [readWords_ok (ws := ws) fun k v hk => by rw [← h (k + 1) v (by simpa using hk)]; congr 1; omega]
    rfl

theorem reifyArgs_ok {f : Ty → CVal → Res Term} {mem : Nat → Option CVal} : ∀ {ds : List Decl} {ts : List Term} {cs : List CVal} {p : Nat},
    ts.length = ds.length → cs.length = ds.length → (∀ (k : Nat) c, cs[k]? = some c → mem (p + k) = some c) →
    (∀ (k : Nat) d t c, ds[k]? = some d → ts[k]? = some t → cs[k]? = some c → f d.ty c = .ok t) → reifyArgs f mem ds p = .ok ts
  | [], [], [], _, _, _, _, _ => rfl
  | d :: ds, t :: ts, c :: cs, p, h1, h2, h3, h4 => by
    rw [reifyArgs, show p = p + 0 from rfl, h3 0 c rfl]
    simp only [Nat.add_zero]
    rw [h4 0 d t c rfl rfl rfl]
    simp only [Res.bind]
    rw [reifyArgs_ok (ds := ds) (ts := ts) (cs := cs) (by simpa using h1) (by simpa using h2)
      (fun k v hk => by rw [← h3 (k + 1) v (by simpa using hk)]; congr 1; omega)
      (fun k d t c a b e => h4 (k + 1) d t c (by simpa using a) (by simpa using b) (by simpa using e))]

end Reify
