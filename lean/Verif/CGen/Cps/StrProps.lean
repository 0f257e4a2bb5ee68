import Verif.CGen.Cps.Model
import Verif.Runtime.StringProps

/-! # Property C53: string literals in programs in continuation-passing style -/

namespace CGen.Cps

/-- The word with the bytes in the opposite order. -/
def byteSwap (w : Nat) : Nat :=
  2 ^ 56 * (w % 256) + 2 ^ 48 * (w / 2 ^ 8 % 256) + 2 ^ 40 * (w / 2 ^ 16 % 256) + 2 ^ 32 * (w / 2 ^ 24 % 256) +
  2 ^ 24 * (w / 2 ^ 32 % 256) + 2 ^ 16 * (w / 2 ^ 40 % 256) + 2 ^ 8 * (w / 2 ^ 48 % 256) + w / 2 ^ 56 % 256

/-- The Clight code emitted by `compile_string` (LambdaANF_to_Clight.v:783-795), executed on a byte-addressed memory as
`RT.literal` does for the other backend. -/
def literalV (s : RT.St) (bs : List Nat) : Option (Nat × RT.St) :=
  let words := bs.length / 8 + 1
  (RT.putWord s s.alloc (words * 1024 + 252)).bind fun s =>
  (RT.putWords s (s.alloc + 8) (encodeListV bs)).bind fun s =>
  some (s.alloc + 8, { s with alloc := s.alloc + 8 * (words + 1) })

theorem byteSwap_pack {a b c d e f g h : Nat} (ha : a < 256) (hb : b < 256) (hc : c < 256) (hd : d < 256) (he : e < 256)
    (hf : f < 256) (hg : g < 256) (hh : h < 256) :
    byteSwap (a + 2^8 * b + 2^16 * c + 2^24 * d + 2^32 * e + 2^40 * f + 2^48 * g + 2^56 * h) =
      2^56 * a + 2^48 * b + 2^40 * c + 2^32 * d + 2^24 * e + 2^16 * f + 2^8 * g + h := by
  obtain ⟨p0, p1, p2, p3, p4, p5, p6, p7⟩ := RT.pack ha hb hc hd he hf hg hh rfl
  rw [byteSwap, p0, p1, p2, p3, p4, p5, p6, p7]

theorem byteSwap_last {a b c d e f g h w : Nat} (ha : a < 256) (hb : b < 256) (hc : c < 256) (hd : d < 256) (he : e < 256)
    (hf : f < 256) (hg : g < 256) (hh : h < 256)
    (hw : w = a + 2^8 * b + 2^16 * c + 2^24 * d + 2^32 * e + 2^40 * f + 2^48 * g + 2^56 * h) :
    byteSwap w = 2^56 * a + 2^48 * b + 2^40 * c + 2^32 * d + 2^24 * e + 2^16 * f + 2^8 * g + h := by
  rw [hw, byteSwap_pack ha hb hc hd he hf hg hh]

/-- The two models of the other backend's encoding agree. -/
theorem encodeList_models (bs : List Nat) : CGen.encodeList bs = RT.encodeList bs := by
  induction bs using RT.encodeList.induct with
  | case9 a b c d e f g i l ih => simp only [CGen.encodeList, RT.encodeList, ih]
  | _ => rfl

/-- For every string, the words this backend emits for a literal are those of the direct-style backend, which the runtime
expects, with the bytes of each word in the opposite order. -/
theorem C53_swapped (bs : List Nat) (hb : RT.Bytes bs) : encodeListV bs = (RT.encodeList bs).map byteSwap := by
  have z : (0 : Nat) < 256 := by decide
  induction bs using RT.encodeList.induct with
  | case9 a b c d e f g i l ih =>
    simp only [encodeListV, RT.encodeList, List.map_cons]
    rw [ih (fun x hx => hb x (by simp [hx])), byteSwap_pack (hb a (by simp)) (hb b (by simp)) (hb c (by simp))
      (hb d (by simp)) (hb e (by simp)) (hb f (by simp)) (hb g (by simp)) (hb i (by simp))]
  | case1 => decide
  | case2 a =>
    simp only [encodeListV, RT.encodeList, List.map_cons, List.map_nil]
    rw [byteSwap_last (a := a) (b := 0) (c := 0) (d := 0) (e := 0) (f := 0) (g := 0) (h := 6) (hb a (by simp)) z z z z z z
      (by decide) (by ring)]
    simp
  | case3 a b =>
    simp only [encodeListV, RT.encodeList, List.map_cons, List.map_nil]
    rw [byteSwap_last (a := a) (b := b) (c := 0) (d := 0) (e := 0) (f := 0) (g := 0) (h := 5) (hb a (by simp)) (hb b (by simp)) z z z z z
      (by decide) (by ring)]
    simp
  | case4 a b c =>
    simp only [encodeListV, RT.encodeList, List.map_cons, List.map_nil]
    rw [byteSwap_last (a := a) (b := b) (c := c) (d := 0) (e := 0) (f := 0) (g := 0) (h := 4) (hb a (by simp)) (hb b (by simp)) (hb c (by simp)) z z z z
      (by decide) (by ring)]
    simp
  | case5 a b c d =>
    simp only [encodeListV, RT.encodeList, List.map_cons, List.map_nil]
    rw [byteSwap_last (a := a) (b := b) (c := c) (d := d) (e := 0) (f := 0) (g := 0) (h := 3) (hb a (by simp)) (hb b (by simp)) (hb c (by simp)) (hb d (by simp)) z z z
      (by decide) (by ring)]
    simp
  | case6 a b c d e =>
    simp only [encodeListV, RT.encodeList, List.map_cons, List.map_nil]
    rw [byteSwap_last (a := a) (b := b) (c := c) (d := d) (e := e) (f := 0) (g := 0) (h := 2) (hb a (by simp)) (hb b (by simp)) (hb c (by simp)) (hb d (by simp)) (hb e (by simp)) z z
      (by decide) (by ring)]
    simp
  | case7 a b c d e f =>
    simp only [encodeListV, RT.encodeList, List.map_cons, List.map_nil]
    rw [byteSwap_last (a := a) (b := b) (c := c) (d := d) (e := e) (f := f) (g := 0) (h := 1) (hb a (by simp)) (hb b (by simp)) (hb c (by simp)) (hb d (by simp)) (hb e (by simp)) (hb f (by simp)) z
      (by decide) (by ring)]
    simp
  | case8 a b c d e f g =>
    simp only [encodeListV, RT.encodeList, List.map_cons, List.map_nil]
    rw [byteSwap_last (a := a) (b := b) (c := c) (d := d) (e := e) (f := f) (g := g) (h := 0) (hb a (by simp)) (hb b (by simp)) (hb c (by simp)) (hb d (by simp)) (hb e (by simp)) (hb f (by simp)) (hb g (by simp))
      (by decide) (by ring)]
    simp

/-- If the bytes of every word of a literal read the same in both directions, the code emitted builds the string (like that
of the other backend, C18). -/
theorem C53_literal_partial (s : RT.St) (bs : List Nat) (hb : RT.Bytes bs) (hlen : bs.length < 2^56)
    (hsym : ∀ w ∈ RT.encodeList bs, byteSwap w = w) (hroom : s.alloc + 8 * (bs.length / 8 + 2) ≤ s.limit) :
    ∃ s', literalV s bs = some (s.alloc + 8, s') ∧ RT.IsString s'.mem (s.alloc + 8) bs := by
  have he : encodeListV bs = RT.encodeList bs := by
    rw [C53_swapped bs hb]
    conv_rhs => rw [← List.map_id (RT.encodeList bs)]
    exact List.map_congr_left hsym
  obtain ⟨s', h1, h2, _⟩ := RT.C18_literal s bs hb hlen hroom
  refine ⟨s', ?_, h2⟩
  rw [← h1]
  unfold literalV RT.literal
  simp only [he]

/-- The string of seven zero bytes is one. -/
example : ∃ s', literalV ⟨fun _ => 1, 992, 2000⟩ [0, 0, 0, 0, 0, 0, 0] = some (1000, s') ∧
    RT.IsString s'.mem 1000 [0, 0, 0, 0, 0, 0, 0] :=
  C53_literal_partial ⟨fun _ => 1, 992, 2000⟩ [0, 0, 0, 0, 0, 0, 0] (by decide) (by decide) (by decide) (by decide)

/-- The literal of a string shorter than eight bytes: one word behind the right header. -/
theorem literalV_short (s : RT.St) (bs : List Nat) (w : Nat) (hl : bs.length < 8) (hw : encodeListV bs = [w])
    (hroom : s.alloc + 16 ≤ s.limit) :
    ∃ s', literalV s bs = some (s.alloc + 8, s') ∧ RT.getWord s'.mem s.alloc = 1276 ∧ s'.mem (s.alloc + 8 + 7) = w / 2^56 % 256 := by
  obtain ⟨m1, e1, g1, o1⟩ := RT.putWord_ok s s.alloc 1276 (by decide) (le_refl _) (by omega)
  obtain ⟨m2, e2, ⟨_, _, _, _, _, _, _, b7⟩, o2⟩ := RT.putWord_bytes { s with mem := m1 } (s.alloc + 8) w
    (by show s.alloc ≤ _; omega) (by show _ ≤ s.limit; omega)
  refine ⟨{ s with mem := m2, alloc := s.alloc + 16 }, ?_, ?_, b7⟩
  · unfold literalV
    rw [show bs.length / 8 = 0 by omega]
    simp only [hw, RT.putWords]
    rw [show (0 + 1) * 1024 + 252 = 1276 by decide, e1]
    simp only [Option.bind_some]
    rw [e2]
    rfl
  · rw [← g1]
    apply RT.getWord_congr
    intro x h1 h2
    exact o2 x (by omega)

/-- For the empty string and for every string of one byte (other than byte 6, whose literal is symmetric) the code emitted
does not build the string: the runtime takes the empty string for one of 7 bytes, and the string with byte `a` for one of
`7 - a` bytes. -/
theorem C53_literal_refuted (s : RT.St) (bs : List Nat) (hb : RT.Bytes bs) (hl : bs = [] ∨ ∃ a, bs = [a] ∧ a ≠ 6)
    (hroom : s.alloc + 16 ≤ s.limit) :
    ∃ s', literalV s bs = some (s.alloc + 8, s') ∧ RT.strlen s'.mem (s.alloc + 8) = 7 - RT.schar (bs[0]?.getD 0) ∧
      ¬ RT.IsString s'.mem (s.alloc + 8) bs := by
  have key : ∀ a, bs[0]?.getD 0 = a → a < 256 → bs.length < 8 → (RT.schar a ≠ 7 - bs.length) → ∀ w, encodeListV bs = [w] → w / 2^56 % 256 = a →
      ∃ s', literalV s bs = some (s.alloc + 8, s') ∧ RT.strlen s'.mem (s.alloc + 8) = 7 - RT.schar (bs[0]?.getD 0) ∧
        ¬ RT.IsString s'.mem (s.alloc + 8) bs := by
    intro a ha ha' hlen hne w hw hwa
    obtain ⟨s', h1, h2, h3⟩ := literalV_short s bs w hlen hw hroom
    have hst : RT.strlen s'.mem (s.alloc + 8) = 7 - RT.schar (bs[0]?.getD 0) := by
      unfold RT.strlen RT.bosize
      rw [Nat.add_sub_cancel, h2]
      simp only [show 1276 / 1024 * 8 = 8 by decide]
      rw [show ((8 : Nat) : Int) - 1 = 7 by decide, show Int.toNat 7 = 7 by decide, h3, hwa, ha]
    refine ⟨s', h1, hst, fun hs => ?_⟩
    have := RT.strlen_ok hs
    rw [hst, ha] at this
    omega
  rcases hl with rfl | ⟨a, rfl, ha⟩
  · exact key 0 rfl (by decide) (by decide) (by decide) 7 rfl (by decide)
  · have ha' := hb a (by simp)
    refine key a rfl ha' (by simp) ?_ _ rfl (by omega)
    unfold RT.schar
    simp only [List.length_singleton]
    split <;> omega

/-- The string "a" read by the runtime has length -90. -/
example : ∃ s', literalV ⟨fun _ => 0, 992, 2000⟩ [97] = some (1000, s') ∧ RT.strlen s'.mem 1000 = -90 := by
  obtain ⟨s', h1, h2, _⟩ := C53_literal_refuted ⟨fun _ => 0, 992, 2000⟩ [97] (by decide) (.inr ⟨97, rfl, by decide⟩) (by decide)
  exact ⟨s', h1, h2⟩

end CGen.Cps
