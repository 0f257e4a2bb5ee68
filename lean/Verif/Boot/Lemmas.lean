import Verif.Boot.Spec
import Mathlib.Data.List.Nodup

/-! # Proofs about copying -/

namespace Boot

/-- Concatenation. -/
def Datas.app : Datas → Datas → Datas
  | .nil, es => es
  | .cons d ds, es => .cons d (ds.app es)

/-- `Val_unit` in every field. -/
def units : Nat → Datas
  | 0 => .nil
  | n + 1 => .cons (.imm 1) (units n)

variable {R H H' : Heap} {ρ : Nat → Nat}

theorem app_nil : ∀ ds : Datas, ds.app .nil = ds
  | .nil => rfl
  | .cons d ds => by rw [Datas.app, app_nil]

theorem app_assoc : ∀ (a b c : Datas), (a.app b).app c = a.app (b.app c)
  | .nil, _, _ => rfl
  | .cons d ds, b, c => by simp only [Datas.app, app_assoc ds]

mutual
theorem Tree.frame : ∀ {d v A}, Tree H d v A → (∀ a ∈ A, H' a = H a) → Tree H' d v A
  | .imm _, _, _, h, _ => h
  | .blk tag ds, v, _, ⟨h1, vs, A', h2, rfl, h3⟩, ha =>
    ⟨h1, vs, A', by rw [ha v (by simp)]; exact h2, rfl, Trees.frame h3 fun a h => ha a (by simp [h])⟩
theorem Trees.frame : ∀ {ds vs A}, Trees H ds vs A → (∀ a ∈ A, H' a = H a) → Trees H' ds vs A
  | .nil, _, _, h, _ => h
  | .cons d ds, _, _, ⟨v, vs', A₁, A₂, rfl, rfl, h1, h2⟩, ha =>
    ⟨v, vs', A₁, A₂, rfl, rfl, h1.frame fun a h => ha a (by simp [h]), h2.frame fun a h => ha a (by simp [h])⟩
end

theorem Trees.length : ∀ {ds vs A}, Trees H ds vs A → vs.length = ds.len
  | .nil, _, _, ⟨rfl, _⟩ => rfl
  | .cons d ds, _, _, ⟨v, vs', A₁, A₂, rfl, rfl, _, h2⟩ => by simp [Datas.len, h2.length]

theorem trees_app : ∀ {ds es vs A}, Trees H (ds.app es) vs A ↔
    ∃ vs₁ vs₂ A₁ A₂, vs = vs₁ ++ vs₂ ∧ A = A₁ ++ A₂ ∧ Trees H ds vs₁ A₁ ∧ Trees H es vs₂ A₂
  | .nil, es, vs, A => by
    simp only [Datas.app, Trees]
    constructor
    · exact fun h => ⟨[], vs, [], A, rfl, rfl, ⟨rfl, rfl⟩, h⟩
    · rintro ⟨_, _, _, _, rfl, rfl, ⟨rfl, rfl⟩, h⟩; exact h
  | .cons d ds, es, vs, A => by
    simp only [Datas.app, Trees]
    constructor
    · rintro ⟨v, vs', A₁, A₂, rfl, rfl, h1, h2⟩
      obtain ⟨w₁, w₂, B₁, B₂, rfl, rfl, h3, h4⟩ := trees_app.1 h2
      exact ⟨v :: w₁, w₂, A₁ ++ B₁, B₂, rfl, by simp, ⟨v, w₁, A₁, B₁, rfl, rfl, h1, h3⟩, h4⟩
    · rintro ⟨_, w₂, _, B₂, rfl, rfl, ⟨v, w₁, A₁, B₁, rfl, rfl, h1, h3⟩, h4⟩
      exact ⟨v, w₁ ++ w₂, A₁, B₁ ++ B₂, rfl, by simp, h1, trees_app.2 ⟨w₁, w₂, B₁, B₂, rfl, rfl, h3, h4⟩⟩

theorem trees_units : ∀ n, Trees H (units n) (List.replicate n 1) []
  | 0 => ⟨rfl, rfl⟩
  | n + 1 => ⟨1, List.replicate n 1, [], [], rfl, rfl, ⟨rfl, rfl, rfl⟩, trees_units n⟩

theorem app_ok : ∀ {ds es : Datas}, (ds.app es).Ok ↔ ds.Ok ∧ es.Ok
  | .nil, es => by simp [Datas.app, Datas.Ok]
  | .cons d ds, es => by simp [Datas.app, Datas.Ok, app_ok (ds := ds), and_assoc]

theorem app_len : ∀ {ds es : Datas}, (ds.app es).len = ds.len + es.len
  | .nil, es => by simp [Datas.app, Datas.len]
  | .cons d ds, es => by simp only [Datas.app, Datas.len, app_len (ds := ds)]; omega

theorem units_ok : ∀ n, (units n).Ok
  | 0 => trivial
  | n + 1 => ⟨trivial, units_ok n⟩

theorem units_len : ∀ n, (units n).len = n
  | 0 => rfl
  | n + 1 => by simp [units, Datas.len, units_len n]

mutual
theorem Tree.reach {roots : List Nat} : ∀ {d v A}, Tree H d v A → d.Ok → (v % 2 = 0 → H v ≠ none → Reach H roots v) → ∀ a ∈ A, Reach H roots a
  | .imm _, _, _, ⟨_, _, rfl⟩, _, _, a, ha => by simp at ha
  | .blk tag ds, v, _, ⟨h1, vs, A', h2, rfl, h3⟩, ho, hv, a, ha => by
    have hr := hv h1 (by rw [h2]; simp)
    rcases List.mem_cons.1 ha with rfl | ha
    · exact hr
    · exact Trees.reach h3 ho.2.2 (fun w hw h4 h5 => .field hr h2 ho.1 hw h4 h5) a ha
theorem Trees.reach {roots : List Nat} : ∀ {ds vs A}, Trees H ds vs A → ds.Ok → (∀ v ∈ vs, v % 2 = 0 → H v ≠ none → Reach H roots v) →
    ∀ a ∈ A, Reach H roots a
  | .nil, _, _, ⟨_, rfl⟩, _, _, a, ha => by simp at ha
  | .cons d ds, _, _, ⟨v, vs', A₁, A₂, rfl, rfl, h1, h2⟩, ho, hv, a, ha => by
    rcases List.mem_append.1 ha with ha | ha
    · exact h1.reach ho.1 (hv v (by simp)) a ha
    · exact h2.reach ho.2 (fun w hw => hv w (by simp [hw])) a ha
end

mutual
theorem Tree.moved : ∀ {d v A}, Tree H d v A → d.Ok →
    (∀ a b, a ∈ A → H a = some b → ρ a % 2 = 0 ∧ H' (ρ a) = some (b.moved H ρ)) → Tree H' d (Boot.moved H ρ v) (A.map ρ)
  | .imm _, v, _, ⟨rfl, h1, rfl⟩, _, _ => ⟨by rw [Boot.moved, if_pos (.inl h1)], by rw [Boot.moved, if_pos (.inl h1)]; exact h1, rfl⟩
  | .blk tag ds, v, _, ⟨h1, vs, A', h2, rfl, h3⟩, ho, hm => by
    obtain ⟨m1, m2⟩ := hm v _ (by simp) h2
    have e : Boot.moved H ρ v = ρ v := by rw [Boot.moved, if_neg (by rw [h2]; simp; omega)]
    rw [Block.moved, if_pos (show _ < noScan from ho.1)] at m2
    exact ⟨by rw [e]; exact m1, _, _, by rw [e]; exact m2, by rw [e]; rfl, Trees.moved h3 ho.2.2 fun a b ha => hm a b (by simp [ha])⟩
theorem Trees.moved : ∀ {ds vs A}, Trees H ds vs A → ds.Ok →
    (∀ a b, a ∈ A → H a = some b → ρ a % 2 = 0 ∧ H' (ρ a) = some (b.moved H ρ)) → Trees H' ds (vs.map (Boot.moved H ρ)) (A.map ρ)
  | .nil, _, _, ⟨rfl, rfl⟩, _, _ => ⟨rfl, rfl⟩
  | .cons d ds, _, _, ⟨v, vs', A₁, A₂, rfl, rfl, h1, h2⟩, ho, hm =>
    ⟨_, _, A₁.map ρ, A₂.map ρ, rfl, by simp, h1.moved ho.1 fun a b ha => hm a b (by simp [ha]),
      h2.moved ho.2 fun a b ha => hm a b (by simp [ha])⟩
end

/-- Memory that is not the OCaml heap's is not used by it. -/
def Apart (R H : Heap) : Prop := ∀ a, R a ≠ none → H a = none

/-- The registered variables are the data `ds`, which do not share blocks, and behind these the data `os`, which share none with the former. -/
structure Inv (R : Heap) (os : Datas) (s : St) (ds : Datas) : Prop where
  apart : Apart R s.heap
  ok : ds.Ok
  oks : os.Ok
  trees : ∃ vs ws A B, s.roots = vs ++ ws ∧ Trees s.heap ds vs A ∧ Trees s.heap os ws B ∧ A.Nodup ∧ ∀ a ∈ A, a ∉ B

theorem mem_left {a : Nat} {b : Block} (h : R a = some b) : mem R H a = some b := by simp [mem, h]

/-- Allocation of a block. -/
theorem alloc_inv {al : Alloc} (hl : Law R al) {s : St} {os ds : Datas} (hs : Inv R os s ds) (size tag : Nat) (ht : tag < 251) (hz : size < 2 ^ 31) :
    ∃ H' rs r, al s.time s.heap (unit :: s.roots) size tag = (H', rs, r) ∧
      Inv R os ⟨H', r :: rs.tail, s.time + 1⟩ (.cons (.blk tag (units size)) ds) := by
  obtain ⟨vs, ws, A, B, he, h1, h1', h2, h3⟩ := hs.trees
  obtain ⟨H', n, ρ, e, n1, n2, m1, m2, m3⟩ := hl.ok s.time s.heap (unit :: s.roots) size tag hs.apart
  have hr : ∀ a ∈ A, Reach s.heap (unit :: s.roots) a := h1.reach hs.ok fun v hv p q => .root (by simp [he, hv]) p q
  have hr' : ∀ a ∈ B, Reach s.heap (unit :: s.roots) a := h1'.reach hs.oks fun v hv p q => .root (by simp [he, hv]) p q
  have hnew : ∀ {a}, Reach s.heap (unit :: s.roots) a → ρ a ≠ n := by
    intro a ha
    have hne : s.heap a ≠ none := by
      cases ha with
      | root _ _ h => exact h
      | field _ _ _ _ _ h => exact h
    obtain ⟨b, hb⟩ := Option.ne_none_iff_exists'.1 hne
    exact (m1 a b ha hb).2.1
  refine ⟨H', _, n, e, m3, ⟨⟨ht, by rw [units_len]; exact hz, units_ok _⟩, hs.ok⟩, hs.oks, n :: vs.map (moved s.heap ρ), ws.map (moved s.heap ρ),
    n :: A.map ρ, B.map ρ, by simp [he], ?_, ?_, ?_, ?_⟩
  · refine ⟨n, vs.map (moved s.heap ρ), [n], A.map ρ, rfl, rfl, ⟨n1, _, [], n2, rfl, trees_units _⟩, ?_⟩
    exact h1.moved hs.ok fun a b ha hb => ⟨(m1 a b (hr a ha) hb).1, (m1 a b (hr a ha) hb).2.2⟩
  · exact h1'.moved hs.oks fun a b ha hb => ⟨(m1 a b (hr' a ha) hb).1, (m1 a b (hr' a ha) hb).2.2⟩
  · rw [List.nodup_cons]
    constructor
    · rw [List.mem_map]
      rintro ⟨a, ha, e⟩
      exact hnew (hr a ha) e
    · exact List.Nodup.map_on (fun a ha b hb => m2 a b (hr a ha) (hr b hb)) h2
  · intro a ha hb
    obtain ⟨b, hb', eb⟩ := List.mem_map.1 hb
    rcases List.mem_cons.1 ha with rfl | ha
    · exact hnew (hr' b hb') eb
    · obtain ⟨a', ha', ea⟩ := List.mem_map.1 ha
      have := m2 b a' (hr' b hb') (hr a' ha') (eb.trans ea.symm)
      exact h3 a' ha' (this ▸ hb')

/-- Storing a copied field. -/
theorem store_inv {s : St} {w : Nat} {tag i : Nat} {d : Data} {ds₀ us ds os : Datas}
    (hs : Inv R os ⟨s.heap, w :: s.roots, s.time⟩ (.cons d (.cons (.blk tag (ds₀.app (.cons (.imm 1) us))) ds))) (hi : ds₀.len = i) :
    ∃ s', store s i w = some s' ∧ Inv R os s' (.cons (.blk tag (ds₀.app (.cons d us))) ds) := by
  obtain ⟨_, ws, A, B, he, h1, h1', h2, h3⟩ := hs.trees
  obtain ⟨w', _, Aw, _, rfl, rfl, tw, r, rs, Ar, As, rfl, rfl, ⟨r0, vs, A', r1, rfl, tf⟩, ts⟩ := h1
  obtain ⟨rfl, e2⟩ : w = w' ∧ s.roots = r :: (rs ++ ws) := by simpa using he
  obtain ⟨vs₁, _, A₁, _, rfl, rfl, t1, u, vs₂, Au, A₂, rfl, rfl, ⟨rfl, _, rfl⟩, t2⟩ := trees_app.1 tf
  have hl : vs₁.length = i := by rw [t1.length, hi]
  have r1 : s.heap r = some ⟨tag, vs₁ ++ 1 :: vs₂⟩ := r1
  have hnd : (Aw ++ ((r :: (A₁ ++ A₂)) ++ As)).Nodup := by simpa using h2
  have hrw : r ∉ Aw := fun h => (List.nodup_append.1 hnd).2.2 r h r (by simp) rfl
  have hr' : (r :: (A₁ ++ A₂ ++ As)).Nodup := by have := (List.nodup_append.1 hnd).2.1; simpa using this
  have hr1 : r ∉ A₁ ∧ r ∉ A₂ ∧ r ∉ As := by have := (List.nodup_cons.1 hr').1; simpa [not_or] using this
  have hset : (vs₁ ++ 1 :: vs₂).set i w = vs₁ ++ w :: vs₂ := by subst hl; simp
  have hperm : (Aw ++ ((r :: (A₁ ++ A₂)) ++ As)).Perm (r :: (A₁ ++ (Aw ++ A₂)) ++ As) := by
    rw [← List.append_assoc]
    refine List.Perm.append_right As ?_
    refine List.perm_middle.trans (List.Perm.cons r ?_)
    rw [← List.append_assoc, ← List.append_assoc]
    exact List.Perm.append_right A₂ List.perm_append_comm
  set G : Heap := fun a => if a = r then some ⟨tag, vs₁ ++ w :: vs₂⟩ else s.heap a with hG
  have hfr : ∀ {a}, a ≠ r → G a = s.heap a := fun h => if_neg h
  refine ⟨⟨G, s.roots, s.time⟩, ?_, ?_, ?_, hs.oks, r :: rs, ws, r :: (A₁ ++ (Aw ++ A₂)) ++ As, B, by simp [e2], ?_, ?_, hperm.nodup_iff.1 hnd, ?_⟩
  · rw [store, e2]
    simp only [r1]
    rw [if_pos (by simp; omega), hset]
  · intro a ha
    have hn : s.heap a = none := hs.apart a ha
    have hne : a ≠ r := by rintro rfl; rw [r1] at hn; cases hn
    rw [show (⟨G, s.roots, s.time⟩ : St).heap a = G a from rfl, hfr hne]; exact hn
  · obtain ⟨o1, ⟨o2, o3, o4⟩, o5⟩ := hs.ok
    have o4 := app_ok.1 o4
    exact ⟨⟨o2, by rw [app_len] at o3 ⊢; exact o3, app_ok.2 ⟨o4.1, o1, o4.2.2⟩⟩, o5⟩
  · refine ⟨r, rs, r :: (A₁ ++ (Aw ++ A₂)), As, rfl, rfl, ⟨r0, vs₁ ++ w :: vs₂, _, if_pos rfl, rfl, trees_app.2 ⟨vs₁, _, A₁, _, rfl, rfl, ?_, ?_⟩⟩, ?_⟩
    · exact t1.frame fun a h => hfr (by rintro rfl; exact hr1.1 h)
    · exact ⟨w, vs₂, Aw, A₂, rfl, rfl, tw.frame fun a h => hfr (by rintro rfl; exact hrw h), t2.frame fun a h => hfr (by rintro rfl; exact hr1.2.1 h)⟩
    · exact ts.frame fun a h => hfr (by rintro rfl; exact hr1.2.2 h)
  · exact h1'.frame fun a h => hfr (by rintro rfl; exact h3 a (by simp) h)
  · intro a ha
    refine h3 a ?_
    have := hperm.mem_iff.2 ha
    simpa using this

mutual
/-- Nesting. -/
def Data.depth : Data → Nat
  | .imm _ => 1
  | .blk _ ds => ds.depth + 1
/-- The same for lists. -/
def Datas.depth : Datas → Nat
  | .nil => 0
  | .cons d ds => max d.depth ds.depth
end

mutual
theorem copy_ok {al : Alloc} {os : Datas} (hl : Law R al) : ∀ (d : Data) {v : Nat} {B : List Nat} {n : Nat} {s : St} {ds : Datas}, Tree R d v B → d.Ok →
    d.depth ≤ n → Inv R os s ds → ∃ w s', copy R al n v s = some (w, s') ∧ Inv R os ⟨s'.heap, w :: s'.roots, s'.time⟩ (.cons d ds)
  | .imm x, v, B, n + 1, s, ds, h, _, _, hs => by
    obtain ⟨rfl, hv, _⟩ := h
    refine ⟨v, s, by rw [copy, if_pos hv], hs.apart, ⟨trivial, hs.ok⟩, hs.oks, ?_⟩
    obtain ⟨vs, ws, A, B, he, h1, h2⟩ := hs.trees
    exact ⟨v :: vs, ws, A, B, by simp [he], ⟨v, vs, [], A, rfl, rfl, ⟨rfl, hv, rfl⟩, h1⟩, h2⟩
  | .imm x, v, B, 0, s, ds, _, _, hn, _ => by simp [Data.depth] at hn
  | .blk tag es, v, B, 0, s, ds, _, _, hn, _ => by simp [Data.depth] at hn
  | .blk tag es, v, _, n + 1, s, ds, h, ho, hn, hs => by
    obtain ⟨hv, vs, B', h1, rfl, h2⟩ := h
    simp only [Data.depth] at hn
    have hlen := h2.length
    obtain ⟨H', rs, r, e, hi⟩ := alloc_inv hl hs vs.length tag ho.1 (by rw [hlen]; exact ho.2.1)
    obtain ⟨s', e', r', rs', hr, hi'⟩ := loop_ok hl es (n := n) (v := v) (done := []) (ds₀ := .nil) h1 h2 ho.2.2 (by omega) (s := ⟨H', r :: rs.tail, s.time + 1⟩) (ds := ds)
      (by rw [← hlen]; exact hi) rfl
    refine ⟨r', { s' with roots := rs' }, ?_, ?_⟩
    · rw [copy, if_neg (by omega), mem_left h1]
      simp only
      rw [if_neg (by rw [hlen]; exact Nat.not_le.2 ho.2.1), e]
      simp only
      rw [show vs.length = es.len from hlen]
      simp only [List.length_nil] at e'
      rw [e']
      simp only [hr]
    · have : (⟨s'.heap, r' :: rs', s'.time⟩ : St) = s' := by rw [← hr]
      show Inv R os ⟨s'.heap, r' :: rs', s'.time⟩ _
      rw [this]; exact hi'
theorem loop_ok {al : Alloc} {os : Datas} (hl : Law R al) : ∀ (es : Datas) {v tag : Nat} {done xs B : List Nat} {n : Nat} {ds₀ ds : Datas} {s : St},
    R v = some ⟨tag, done ++ xs⟩ → Trees R es xs B → es.Ok → es.depth ≤ n → Inv R os s (.cons (.blk tag (ds₀.app (units es.len))) ds) →
    ds₀.len = done.length →
    ∃ s', loop R (copy R al n) v es.len done.length s = some s' ∧ ∃ r' rs', s'.roots = r' :: rs' ∧ Inv R os s' (.cons (.blk tag (ds₀.app es)) ds)
  | .nil, v, tag, done, xs, B, n, ds₀, ds, s, _, _, _, _, hs, _ => by
    obtain ⟨_, ws, _, _, he, ⟨r, rs, _, _, rfl, _⟩, _⟩ := hs.trees
    exact ⟨s, rfl, r, rs ++ ws, by simp [he], hs⟩
  | .cons d es, v, tag, done, ys, _, n, ds₀, ds, s, h1, h, ho, hn, hs, hd => by
    obtain ⟨x, xs, B₁, B₂, rfl, rfl, t1, t2⟩ := h
    simp only [Datas.depth] at hn
    obtain ⟨w, s', e, hi⟩ := copy_ok hl d (n := n) t1 ho.1 (by omega) hs
    obtain ⟨s'', e', hi'⟩ := store_inv (us := units es.len) hi hd
    obtain ⟨s₃, e₃, r', rs', hr, hi₃⟩ := loop_ok hl es (done := done ++ [x]) (ds₀ := ds₀.app (.cons d .nil)) (ds := ds) (s := s'') (n := n) (v := v)
      (by simpa using h1) t2 ho.2 (by omega) (by rw [app_assoc]; exact hi') (by rw [app_len, hd]; simp [Datas.len])
    refine ⟨s₃, ?_, r', rs', hr, by rw [app_assoc] at hi₃; exact hi₃⟩
    rw [Datas.len, loop, mem_left h1]
    simp only [Option.bind_some]
    rw [show (done ++ x :: xs)[done.length]? = some x by simp]
    simp only [e, e']
    rw [List.length_append] at e₃
    exact e₃
end

end Boot
