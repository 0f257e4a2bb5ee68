import Verif.Runtime.StringModel

/-! Helper lemmas for the string primitives. -/

namespace RT

/-- Bytes, padding and last byte of a string starting at `p`, without its header. -/
structure Body (m : Mem) (p : Nat) (bs : List Nat) : Prop where
  bytes : ∀ (i : Nat) (h : i < bs.length), m (p + i) = bs[i]
  padding : ∀ i, bs.length ≤ i → i < 8 * (bs.length / 8 + 1) - 1 → m (p + i) = 0
  last : m (p + (8 * (bs.length / 8 + 1) - 1)) = 7 - bs.length % 8

theorem padLoop_ok (words strp i : Nat) (hw : 0 < words) :
    ∀ (fuel j : Nat) (s : St), 8 * words ≤ j + fuel → j < 8 * words → s.alloc ≤ strp →
      strp + 8 * words ≤ s.limit →
      ∃ m, padLoop words strp i fuel j s = some { s with mem := m } ∧
        (∀ k, j ≤ k → k < 8 * words - 1 → m (strp + k) = 0) ∧
        m (strp + (8 * words - 1)) = (8 * words - 1 - i) % 256 ∧
        (∀ x, x < strp + j ∨ strp + 8 * words ≤ x → m x = s.mem x) := by
  intro fuel
  induction fuel with
  | zero => intro j s h1 h2; omega
  | succ fuel ih =>
    intro j s h1 h2 h3 h4
    unfold padLoop
    by_cases c : (j + 1) / 8 < words
    · rw [if_pos c]
      have hp : putByte s (strp + j) 0 = some { s with mem := upd s.mem (strp + j) 0 } :=
        if_pos ⟨by omega, by omega⟩
      rw [hp, Option.bind_some]
      obtain ⟨m, e, z, l, o⟩ := ih (j + 1) { s with mem := upd s.mem (strp + j) 0 } (by omega) (by omega) h3 h4
      refine ⟨m, e, ?_, l, ?_⟩
      · intro k hk hk'
        by_cases hkj : k = j
        · subst hkj
          rw [o (strp + k) (by omega)]; simp [upd]
        · exact z k (by omega) hk'
      · intro x hx
        rw [o x (by omega)]
        have : x ≠ strp + j := by omega
        simp [upd, this]
    · rw [if_neg c]
      have hj : j = 8 * words - 1 := by omega
      refine ⟨upd s.mem (strp + j) ((j - i) % 256), if_pos ⟨by omega, by omega⟩, ?_, ?_, ?_⟩
      · intro k hk hk'; omega
      · rw [← hj]; simp [upd]
      · intro x hx
        have : x ≠ strp + j := by omega
        simp [upd, this]

/-- Header, bytes and padding written by the runtime string constructors. -/
theorem build_ok (s : St) (hd words : Nat) (str : List Nat) (hb : Bytes str) (hd64 : hd < 2^64)
    (hw : words = str.length / 8 + 1) (hroom : s.alloc + 8 * (words + 1) ≤ s.limit) :
    ∃ m, ((putWord s s.alloc hd).bind fun s => (putBytes s (s.alloc + 8) str).bind fun s =>
        (padLoop words (s.alloc + 8) str.length (8 * words + 1) str.length s)) = some { s with mem := m } ∧
      getWord m s.alloc = hd ∧ Body m (s.alloc + 8) str ∧
      (∀ x, x < s.alloc ∨ s.alloc + 8 * (words + 1) ≤ x → m x = s.mem x) := by
  obtain ⟨m1, e1, g1, o1⟩ := putWord_ok s s.alloc hd hd64 (le_refl _) (by omega)
  obtain ⟨m2, e2, g2, o2⟩ := putBytes_ok { s with mem := m1 } (s.alloc + 8) str (by show s.alloc ≤ _; omega)
    (by show _ ≤ s.limit; omega)
  obtain ⟨m3, e3, z3, l3, o3⟩ := padLoop_ok words (s.alloc + 8) str.length (by omega) (8 * words + 1) str.length
    { s with mem := m2 } (by omega) (by omega) (by show s.alloc ≤ _; omega) (by show _ ≤ s.limit; omega)
  refine ⟨m3, ?_, ?_, ⟨?_, ?_, ?_⟩, ?_⟩
  · rw [e1, Option.bind_some]
    show ((putBytes { s with mem := m1 } (s.alloc + 8) str).bind _) = _
    rw [e2, Option.bind_some]
    exact e3
  · rw [← g1]
    apply getWord_congr
    intro x h1 h2
    rw [o3 x (by omega)]
    exact o2 x (by omega)
  · intro i hi
    rw [o3 _ (by omega)]
    show m2 _ = _
    rw [g2 i hi]
    exact Nat.mod_eq_of_lt (hb _ (List.getElem_mem hi))
  · intro i h1 h2
    exact z3 i h1 (by omega)
  · rw [← hw, l3]
    omega
  · intro x hx
    rw [o3 x (by omega)]
    show m2 x = _
    rw [o2 x (by omega)]
    show m1 x = _
    rw [o1 x (by omega)]

theorem strlen_ok {m : Mem} {p : Nat} {bs : List Nat} (h : IsString m p bs) : strlen m p = bs.length := by
  unfold strlen bosize
  rw [h.header]
  have e : ((bs.length / 8 + 1) * 1024 + 252) / 1024 * 8 = 8 * (bs.length / 8 + 1) := by omega
  simp only [e]
  have e2 : (((8 * (bs.length / 8 + 1) : Nat) : Int) - 1).toNat = 8 * (bs.length / 8 + 1) - 1 := by omega
  rw [e2, h.last]
  unfold schar
  rw [if_pos (by omega)]
  omega

/-! ### literals -/

theorem putWord_bytes (s : St) (a w : Nat) (h1 : s.alloc ≤ a) (h2 : a + 8 ≤ s.limit) :
    ∃ m, putWord s a w = some { s with mem := m } ∧
      (m a = w % 256 ∧ m (a+1) = w / 2^8 % 256 ∧ m (a+2) = w / 2^16 % 256 ∧ m (a+3) = w / 2^24 % 256 ∧
       m (a+4) = w / 2^32 % 256 ∧ m (a+5) = w / 2^40 % 256 ∧ m (a+6) = w / 2^48 % 256 ∧
       m (a+7) = w / 2^56 % 256) ∧
      (∀ x, (x < a ∨ a + 8 ≤ x) → m x = s.mem x) := by
  obtain ⟨m, e, g, o⟩ := putBytes_ok s a (wordBytes w) h1 (by simpa [wordBytes] using h2)
  refine ⟨m, e, ?_, fun x hx => o x (by simpa [wordBytes] using hx)⟩
  have h0 := g 0 (by simp [wordBytes])
  have h1 := g 1 (by simp [wordBytes])
  have h2 := g 2 (by simp [wordBytes])
  have h3 := g 3 (by simp [wordBytes])
  have h4 := g 4 (by simp [wordBytes])
  have h5 := g 5 (by simp [wordBytes])
  have h6 := g 6 (by simp [wordBytes])
  have h7 := g 7 (by simp [wordBytes])
  simp only [wordBytes, List.getElem_cons_succ, List.getElem_cons_zero, Nat.add_zero, Nat.mod_mod] at h0 h1 h2 h3 h4 h5 h6 h7
  exact ⟨h0, h1, h2, h3, h4, h5, h6, h7⟩

theorem digit (a r : Nat) (h : a < 256) : (a + 256 * r) % 256 = a ∧ (a + 256 * r) / 256 = r := by omega

/-- Bytes of a packed word. -/
theorem pack {a b c d e f g h w : Nat} (ha : a < 256) (hb : b < 256) (hc : c < 256) (hd : d < 256) (he : e < 256)
    (hf : f < 256) (hg : g < 256) (hh : h < 256)
    (hw : w = a + 2^8 * b + 2^16 * c + 2^24 * d + 2^32 * e + 2^40 * f + 2^48 * g + 2^56 * h) :
    w % 256 = a ∧ w / 2^8 % 256 = b ∧ w / 2^16 % 256 = c ∧ w / 2^24 % 256 = d ∧ w / 2^32 % 256 = e ∧
      w / 2^40 % 256 = f ∧ w / 2^48 % 256 = g ∧ w / 2^56 % 256 = h := by
  have e0 : w = a + 256 * (b + 256 * (c + 256 * (d + 256 * (e + 256 * (f + 256 * (g + 256 * h)))))) := by
    rw [hw]; ring
  clear hw
  have d1 : ∀ n : Nat, n / 2^8 = n / 256 := fun n => rfl
  have d2 : ∀ n : Nat, n / 2^16 = n / 256 / 256 := fun n => by
    simp only [Nat.div_div_eq_div_mul]; norm_num
  have d3 : ∀ n : Nat, n / 2^24 = n / 256 / 256 / 256 := fun n => by
    simp only [Nat.div_div_eq_div_mul]; norm_num
  have d4 : ∀ n : Nat, n / 2^32 = n / 256 / 256 / 256 / 256 := fun n => by
    simp only [Nat.div_div_eq_div_mul]; norm_num
  have d5 : ∀ n : Nat, n / 2^40 = n / 256 / 256 / 256 / 256 / 256 := fun n => by
    simp only [Nat.div_div_eq_div_mul]; norm_num
  have d6 : ∀ n : Nat, n / 2^48 = n / 256 / 256 / 256 / 256 / 256 / 256 := fun n => by
    simp only [Nat.div_div_eq_div_mul]; norm_num
  have d7 : ∀ n : Nat, n / 2^56 = n / 256 / 256 / 256 / 256 / 256 / 256 / 256 := fun n => by
    simp only [Nat.div_div_eq_div_mul]; norm_num
  rw [d1, d2, d3, d4, d5, d6, d7, e0]
  rw [(digit a _ ha).1, (digit a _ ha).2, (digit b _ hb).1, (digit b _ hb).2, (digit c _ hc).1, (digit c _ hc).2,
    (digit d _ hd).1, (digit d _ hd).2, (digit e _ he).1, (digit e _ he).2, (digit f _ hf).1, (digit f _ hf).2,
    (digit g _ hg).1, (digit g _ hg).2]
  exact ⟨rfl, rfl, rfl, rfl, rfl, rfl, rfl, Nat.mod_eq_of_lt hh⟩

/-- A single final word: the bytes, zeros, and the padding count. -/
theorem lastWord_ok (s : St) (t w : Nat) (bs : List Nat) (hlen : bs.length < 8) (h1 : s.alloc ≤ t)
    (h2 : t + 8 ≤ s.limit) (hb : Bytes bs)
    (hw : w = bs[0]?.getD 0 + 2^8 * bs[1]?.getD 0 + 2^16 * bs[2]?.getD 0 + 2^24 * bs[3]?.getD 0 +
      2^32 * bs[4]?.getD 0 + 2^40 * bs[5]?.getD 0 + 2^48 * bs[6]?.getD 0 + 2^56 * (7 - bs.length)) :
    ∃ m, putWords s t [w] = some { s with mem := m } ∧ Body m t bs ∧
      (∀ x, x < t ∨ t + 8 ≤ x → m x = s.mem x) := by
  obtain ⟨m, e, ⟨b0, b1, b2, b3, b4, b5, b6, b7⟩, o⟩ := putWord_bytes s t w h1 h2
  have hby : ∀ i : Nat, bs[i]?.getD 0 < 256 := by
    intro i
    by_cases hi : i < bs.length
    · simp only [hi, List.getElem?_eq_getElem, Option.getD_some]; exact hb _ (List.getElem_mem hi)
    · simp [Nat.not_lt.1 hi]
  obtain ⟨p0, p1, p2, p3, p4, p5, p6, p7⟩ := pack (hby 0) (hby 1) (hby 2) (hby 3) (hby 4) (hby 5) (hby 6)
    (by omega : 7 - bs.length < 256) hw
  have key : ∀ i : Nat, i < 7 → m (t + i) = bs[i]?.getD 0 := by
    intro i hi
    match i, hi with
    | 0, _ => rw [Nat.add_zero, b0, p0]
    | 1, _ => rw [b1, p1]
    | 2, _ => rw [b2, p2]
    | 3, _ => rw [b3, p3]
    | 4, _ => rw [b4, p4]
    | 5, _ => rw [b5, p5]
    | 6, _ => rw [b6, p6]
  have hz : bs.length / 8 = 0 := by omega
  refine ⟨m, by rw [putWords, e]; rfl, ⟨?_, ?_, ?_⟩, o⟩
  · intro i hi
    rw [key i (by omega)]; simp [hi]
  · intro i h1 h2
    rw [key i (by omega)]; simp [Nat.not_lt.2 h1]
  · rw [hz]
    show m (t + 7) = _
    rw [b7, p7]; omega

theorem encode_ok : ∀ (bs : List Nat) (s : St) (a : Nat), Bytes bs → s.alloc ≤ a →
    a + 8 * (bs.length / 8 + 1) ≤ s.limit →
    ∃ m, putWords s a (encodeList bs) = some { s with mem := m } ∧ Body m a bs ∧
      (∀ x, x < a ∨ a + 8 * (bs.length / 8 + 1) ≤ x → m x = s.mem x) := by
  intro bs
  induction bs using encodeList.induct with
  | case9 x y z w lx ly lz lw l ih =>
    intro s a hb h1 h2
    have hx : x < 256 := hb x (by simp)
    have hy : y < 256 := hb y (by simp)
    have hz : z < 256 := hb z (by simp)
    have hw : w < 256 := hb w (by simp)
    have hlx : lx < 256 := hb lx (by simp)
    have hly : ly < 256 := hb ly (by simp)
    have hlz : lz < 256 := hb lz (by simp)
    have hlw : lw < 256 := hb lw (by simp)
    have hbl : Bytes l := fun b h => hb b (by simp [h])
    simp only [List.length_cons] at h2 ⊢
    have hlen : (l.length + 1 + 1 + 1 + 1 + 1 + 1 + 1 + 1) / 8 = l.length / 8 + 1 := by omega
    rw [hlen] at h2 ⊢
    rw [encodeList]
    obtain ⟨m1, e1, ⟨b0, b1, b2, b3, b4, b5, b6, b7⟩, o1⟩ := putWord_bytes s a
      (x + 2^8 * y + 2^16 * z + 2^24 * w + 2^32 * lx + 2^40 * ly + 2^48 * lz + 2^56 * lw) h1 (Nat.le_trans (by omega) h2)
    obtain ⟨p0, p1, p2, p3, p4, p5, p6, p7⟩ := pack hx hy hz hw hlx hly hlz hlw rfl
    obtain ⟨m2, e2, B2, o2⟩ := ih { s with mem := m1 } (a + 8) hbl (by show s.alloc ≤ _; omega)
      (by show _ ≤ s.limit; omega)
    refine ⟨m2, by rw [putWords, e1]; exact e2, ⟨?_, ?_, ?_⟩, ?_⟩
    · intro i hi
      by_cases c : i < 8
      · rw [o2 _ (by omega)]
        match i, c with
        | 0, _ => show m1 a = x; rw [b0, p0]
        | 1, _ => show m1 (a+1) = y; rw [b1, p1]
        | 2, _ => show m1 (a+2) = z; rw [b2, p2]
        | 3, _ => show m1 (a+3) = w; rw [b3, p3]
        | 4, _ => show m1 (a+4) = lx; rw [b4, p4]
        | 5, _ => show m1 (a+5) = ly; rw [b5, p5]
        | 6, _ => show m1 (a+6) = lz; rw [b6, p6]
        | 7, _ => show m1 (a+7) = lw; rw [b7, p7]
      · obtain ⟨k, rfl⟩ : ∃ k, i = k + 8 := ⟨i - 8, by omega⟩
        have := B2.bytes k (by simp only [List.length_cons] at hi; omega)
        rw [show a + (k + 8) = a + 8 + k by omega, this]
        simp
    · intro i h3 h4
      simp only [List.length_cons] at h3 h4
      obtain ⟨k, rfl⟩ : ∃ k, i = k + 8 := ⟨i - 8, by omega⟩
      have := B2.padding k (by omega) (by omega)
      rw [show a + (k + 8) = a + 8 + k by omega, this]
    · simp only [List.length_cons]
      have := B2.last
      rw [hlen, show a + (8 * (l.length / 8 + 1 + 1) - 1) = a + 8 + (8 * (l.length / 8 + 1) - 1) by omega, this]
      omega
    · intro q hq
      rw [o2 q (by omega)]
      exact o1 q (by omega)
  | _ =>
    intro s a hb h1 h2
    simp only [List.length_cons, List.length_nil] at h2 ⊢
    simp only [encodeList]
    apply lastWord_ok s a _ _ (by simp) h1 (by omega) hb
    simp only [List.length_cons, List.length_nil]
    simp
    try omega

end RT
