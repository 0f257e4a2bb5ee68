import Mathlib.Data.List.Basic
import Mathlib.Tactic.Common

/-!
# Numbers and strings between Rocq and OCaml

plugin/static/camlrocq.ml (numbers, strings), plugin/static/caml_byte.ml, caml_bytestring.ml, caml_nat.ml.  They are used by the printer of C files and by
the plugin.

OCaml's `int`, `int32` and `int64` are words of 63, 32 and 64 bits with arithmetic that wraps; a string is the list of the codes of its characters.
-/

namespace Bnd

/-- `positive`. -/
inductive Pos
  | xI (p : Pos)
  | xO (p : Pos)
  | xH

/-- `N` and `Z`. -/
inductive N
  | N0
  | Npos (p : Pos)
inductive Z
  | Z0
  | Zpos (p : Pos)
  | Zneg (p : Pos)

/-- `Pos.succ` (Rocq's library). -/
def Pos.succ : Pos → Pos
  | .xI p => .xO p.succ
  | .xO p => .xI p
  | .xH => .xO .xH

/-- `P.to_int` (camlrocq.ml:54-57). -/
def pToInt : Pos → BitVec 63
  | .xI p => let n := pToInt p; n + n + 1
  | .xO p => let n := pToInt p; n + n
  | .xH => 1

/-- `P.to_int64` (camlrocq.ml:59-62). -/
def pToInt64 : Pos → BitVec 64
  | .xI p => let n := pToInt64 p; n + (n + 1)
  | .xO p => let n := pToInt64 p; n + n
  | .xH => 1

/-- `P.of_int` (camlrocq.ml:63-65) for numbers that are not negative. -/
def pOfInt : Nat → Pos
  | 0 => .xH
  | x + 1 => (pOfInt x).succ

/-- `Z.to_int`, `Z.to_int64` (camlrocq.ml:68-76). -/
def zToInt : Z → BitVec 63
  | .Z0 => 0
  | .Zpos p => pToInt p
  | .Zneg p => -pToInt p
def zToInt64 : Z → BitVec 64
  | .Z0 => 0
  | .Zpos p => pToInt64 p
  | .Zneg p => -pToInt64 p

/-- `N.to_int`, `N.of_int` (camlrocq.ml:162-169). -/
def nToInt : N → BitVec 63
  | .N0 => 0
  | .Npos p => pToInt p
def nOfInt (i : Nat) : N := if i = 0 then .N0 else .Npos (pOfInt i)

/-- `camlint_of_coqint`, `camlint64_of_coqint` (camlrocq.ml:358-359). -/
def camlint (z : Z) : BitVec 32 := (zToInt z).setWidth 32
def camlint64 (z : Z) : BitVec 64 := zToInt64 z

/-- `Nat.to_int` (camlrocq.ml:31-33) and `caml_int_of_nat` (caml_nat.ml:7-11), which counts in an accumulator. -/
def natToInt : Nat → BitVec 63
  | 0 => 0
  | n + 1 => natToInt n + 1
def camlIntOfNatAux : Nat → BitVec 63 → BitVec 63
  | 0, acc => acc
  | n + 1, acc => camlIntOfNatAux n (acc + 1)
def camlIntOfNat (n : Nat) : BitVec 63 := camlIntOfNatAux n 0

/-- The loop of `nat_of_caml_int` (caml_nat.ml:1-5); `k` steps suffice when `i < k`. -/
def natOfCamlIntAux : Nat → Nat → Int → Nat
  | 0, acc, _ => acc
  | k + 1, acc, i => if i < 0 then acc else natOfCamlIntAux k (acc + 1) (i - 1)
def natOfCamlInt (i : Int) : Nat := natOfCamlIntAux (i.toNat + 1) 0 (i - 1)

/-- The rows of `char_of_byte` (caml_byte.ml:2-258): the byte and the character's code, as in the file. -/
def charTable : List (Nat × Nat) := [
   (0x00, 0), (0x01, 1), (0x02, 2), (0x03, 3), (0x04, 4), (0x05, 5), (0x06, 6), (0x07, 7), (0x08, 8), (0x09, 9), (0x0a, 10), (0x0b, 11), (0x0c, 12), (0x0d, 13), (0x0e, 14), (0x0f, 15),
   (0x10, 16), (0x11, 17), (0x12, 18), (0x13, 19), (0x14, 20), (0x15, 21), (0x16, 22), (0x17, 23), (0x18, 24), (0x19, 25), (0x1a, 26), (0x1b, 27), (0x1c, 28), (0x1d, 29), (0x1e, 30), (0x1f, 31),
   (0x20, 32), (0x21, 33), (0x22, 34), (0x23, 35), (0x24, 36), (0x25, 37), (0x26, 38), (0x27, 39), (0x28, 40), (0x29, 41), (0x2a, 42), (0x2b, 43), (0x2c, 44), (0x2d, 45), (0x2e, 46), (0x2f, 47),
   (0x30, 48), (0x31, 49), (0x32, 50), (0x33, 51), (0x34, 52), (0x35, 53), (0x36, 54), (0x37, 55), (0x38, 56), (0x39, 57), (0x3a, 58), (0x3b, 59), (0x3c, 60), (0x3d, 61), (0x3e, 62), (0x3f, 63),
   (0x40, 64), (0x41, 65), (0x42, 66), (0x43, 67), (0x44, 68), (0x45, 69), (0x46, 70), (0x47, 71), (0x48, 72), (0x49, 73), (0x4a, 74), (0x4b, 75), (0x4c, 76), (0x4d, 77), (0x4e, 78), (0x4f, 79),
   (0x50, 80), (0x51, 81), (0x52, 82), (0x53, 83), (0x54, 84), (0x55, 85), (0x56, 86), (0x57, 87), (0x58, 88), (0x59, 89), (0x5a, 90), (0x5b, 91), (0x5c, 92), (0x5d, 93), (0x5e, 94), (0x5f, 95),
   (0x60, 96), (0x61, 97), (0x62, 98), (0x63, 99), (0x64, 100), (0x65, 101), (0x66, 102), (0x67, 103), (0x68, 104), (0x69, 105), (0x6a, 106), (0x6b, 107), (0x6c, 108), (0x6d, 109), (0x6e, 110), (0x6f, 111),
   (0x70, 112), (0x71, 113), (0x72, 114), (0x73, 115), (0x74, 116), (0x75, 117), (0x76, 118), (0x77, 119), (0x78, 120), (0x79, 121), (0x7a, 122), (0x7b, 123), (0x7c, 124), (0x7d, 125), (0x7e, 126), (0x7f, 127),
   (0x80, 128), (0x81, 129), (0x82, 130), (0x83, 131), (0x84, 132), (0x85, 133), (0x86, 134), (0x87, 135), (0x88, 136), (0x89, 137), (0x8a, 138), (0x8b, 139), (0x8c, 140), (0x8d, 141), (0x8e, 142), (0x8f, 143),
   (0x90, 144), (0x91, 145), (0x92, 146), (0x93, 147), (0x94, 148), (0x95, 149), (0x96, 150), (0x97, 151), (0x98, 152), (0x99, 153), (0x9a, 154), (0x9b, 155), (0x9c, 156), (0x9d, 157), (0x9e, 158), (0x9f, 159),
   (0xa0, 160), (0xa1, 161), (0xa2, 162), (0xa3, 163), (0xa4, 164), (0xa5, 165), (0xa6, 166), (0xa7, 167), (0xa8, 168), (0xa9, 169), (0xaa, 170), (0xab, 171), (0xac, 172), (0xad, 173), (0xae, 174), (0xaf, 175),
   (0xb0, 176), (0xb1, 177), (0xb2, 178), (0xb3, 179), (0xb4, 180), (0xb5, 181), (0xb6, 182), (0xb7, 183), (0xb8, 184), (0xb9, 185), (0xba, 186), (0xbb, 187), (0xbc, 188), (0xbd, 189), (0xbe, 190), (0xbf, 191),
   (0xc0, 192), (0xc1, 193), (0xc2, 194), (0xc3, 195), (0xc4, 196), (0xc5, 197), (0xc6, 198), (0xc7, 199), (0xc8, 200), (0xc9, 201), (0xca, 202), (0xcb, 203), (0xcc, 204), (0xcd, 205), (0xce, 206), (0xcf, 207),
   (0xd0, 208), (0xd1, 209), (0xd2, 210), (0xd3, 211), (0xd4, 212), (0xd5, 213), (0xd6, 214), (0xd7, 215), (0xd8, 216), (0xd9, 217), (0xda, 218), (0xdb, 219), (0xdc, 220), (0xdd, 221), (0xde, 222), (0xdf, 223),
   (0xe0, 224), (0xe1, 225), (0xe2, 226), (0xe3, 227), (0xe4, 228), (0xe5, 229), (0xe6, 230), (0xe7, 231), (0xe8, 232), (0xe9, 233), (0xea, 234), (0xeb, 235), (0xec, 236), (0xed, 237), (0xee, 238), (0xef, 239),
   (0xf0, 240), (0xf1, 241), (0xf2, 242), (0xf3, 243), (0xf4, 244), (0xf5, 245), (0xf6, 246), (0xf7, 247), (0xf8, 248), (0xf9, 249), (0xfa, 250), (0xfb, 251), (0xfc, 252), (0xfd, 253), (0xfe, 254), (0xff, 255)]

/-- The rows of `byte_of_char` (caml_byte.ml:259-515). -/
def byteTable : List (Nat × Nat) := [
   (0, 0x00), (1, 0x01), (2, 0x02), (3, 0x03), (4, 0x04), (5, 0x05), (6, 0x06), (7, 0x07), (8, 0x08), (9, 0x09), (10, 0x0a), (11, 0x0b), (12, 0x0c), (13, 0x0d), (14, 0x0e), (15, 0x0f),
   (16, 0x10), (17, 0x11), (18, 0x12), (19, 0x13), (20, 0x14), (21, 0x15), (22, 0x16), (23, 0x17), (24, 0x18), (25, 0x19), (26, 0x1a), (27, 0x1b), (28, 0x1c), (29, 0x1d), (30, 0x1e), (31, 0x1f),
   (32, 0x20), (33, 0x21), (34, 0x22), (35, 0x23), (36, 0x24), (37, 0x25), (38, 0x26), (39, 0x27), (40, 0x28), (41, 0x29), (42, 0x2a), (43, 0x2b), (44, 0x2c), (45, 0x2d), (46, 0x2e), (47, 0x2f),
   (48, 0x30), (49, 0x31), (50, 0x32), (51, 0x33), (52, 0x34), (53, 0x35), (54, 0x36), (55, 0x37), (56, 0x38), (57, 0x39), (58, 0x3a), (59, 0x3b), (60, 0x3c), (61, 0x3d), (62, 0x3e), (63, 0x3f),
   (64, 0x40), (65, 0x41), (66, 0x42), (67, 0x43), (68, 0x44), (69, 0x45), (70, 0x46), (71, 0x47), (72, 0x48), (73, 0x49), (74, 0x4a), (75, 0x4b), (76, 0x4c), (77, 0x4d), (78, 0x4e), (79, 0x4f),
   (80, 0x50), (81, 0x51), (82, 0x52), (83, 0x53), (84, 0x54), (85, 0x55), (86, 0x56), (87, 0x57), (88, 0x58), (89, 0x59), (90, 0x5a), (91, 0x5b), (92, 0x5c), (93, 0x5d), (94, 0x5e), (95, 0x5f),
   (96, 0x60), (97, 0x61), (98, 0x62), (99, 0x63), (100, 0x64), (101, 0x65), (102, 0x66), (103, 0x67), (104, 0x68), (105, 0x69), (106, 0x6a), (107, 0x6b), (108, 0x6c), (109, 0x6d), (110, 0x6e), (111, 0x6f),
   (112, 0x70), (113, 0x71), (114, 0x72), (115, 0x73), (116, 0x74), (117, 0x75), (118, 0x76), (119, 0x77), (120, 0x78), (121, 0x79), (122, 0x7a), (123, 0x7b), (124, 0x7c), (125, 0x7d), (126, 0x7e), (127, 0x7f),
   (128, 0x80), (129, 0x81), (130, 0x82), (131, 0x83), (132, 0x84), (133, 0x85), (134, 0x86), (135, 0x87), (136, 0x88), (137, 0x89), (138, 0x8a), (139, 0x8b), (140, 0x8c), (141, 0x8d), (142, 0x8e), (143, 0x8f),
   (144, 0x90), (145, 0x91), (146, 0x92), (147, 0x93), (148, 0x94), (149, 0x95), (150, 0x96), (151, 0x97), (152, 0x98), (153, 0x99), (154, 0x9a), (155, 0x9b), (156, 0x9c), (157, 0x9d), (158, 0x9e), (159, 0x9f),
   (160, 0xa0), (161, 0xa1), (162, 0xa2), (163, 0xa3), (164, 0xa4), (165, 0xa5), (166, 0xa6), (167, 0xa7), (168, 0xa8), (169, 0xa9), (170, 0xaa), (171, 0xab), (172, 0xac), (173, 0xad), (174, 0xae), (175, 0xaf),
   (176, 0xb0), (177, 0xb1), (178, 0xb2), (179, 0xb3), (180, 0xb4), (181, 0xb5), (182, 0xb6), (183, 0xb7), (184, 0xb8), (185, 0xb9), (186, 0xba), (187, 0xbb), (188, 0xbc), (189, 0xbd), (190, 0xbe), (191, 0xbf),
   (192, 0xc0), (193, 0xc1), (194, 0xc2), (195, 0xc3), (196, 0xc4), (197, 0xc5), (198, 0xc6), (199, 0xc7), (200, 0xc8), (201, 0xc9), (202, 0xca), (203, 0xcb), (204, 0xcc), (205, 0xcd), (206, 0xce), (207, 0xcf),
   (208, 0xd0), (209, 0xd1), (210, 0xd2), (211, 0xd3), (212, 0xd4), (213, 0xd5), (214, 0xd6), (215, 0xd7), (216, 0xd8), (217, 0xd9), (218, 0xda), (219, 0xdb), (220, 0xdc), (221, 0xdd), (222, 0xde), (223, 0xdf),
   (224, 0xe0), (225, 0xe1), (226, 0xe2), (227, 0xe3), (228, 0xe4), (229, 0xe5), (230, 0xe6), (231, 0xe7), (232, 0xe8), (233, 0xe9), (234, 0xea), (235, 0xeb), (236, 0xec), (237, 0xed), (238, 0xee), (239, 0xef),
   (240, 0xf0), (241, 0xf1), (242, 0xf2), (243, 0xf3), (244, 0xf4), (245, 0xf5), (246, 0xf6), (247, 0xf7), (248, 0xf8), (249, 0xf9), (250, 0xfa), (251, 0xfb), (252, 0xfc), (253, 0xfd), (254, 0xfe), (255, 0xff)]

/-- `char_of_byte` and `byte_of_char`. -/
def charOfByte (b : Nat) : Option Nat := charTable.lookup b
def byteOfChar (c : Nat) : Option Nat := byteTable.lookup c

/-- The loop of `caml_string_of_bytestring` (caml_bytestring.ml:11-20); `none`: a write outside the buffer, or no row. -/
def fill : List Nat → Nat → List Nat → Option (List Nat)
  | buf, _, [] => some buf
  | buf, i, c :: cs => match charOfByte c with
    | some x => if i < buf.length then fill (buf.set i x) (i + 1) cs else none
    | none => none

/-- `caml_bytestring_length` (caml_bytestring.ml:4-9). -/
def lengthAux : List Nat → Nat → Nat
  | [], acc => acc
  | _ :: s, acc => lengthAux s (acc + 1)

/-- `caml_string_of_bytestring` (caml_bytestring.ml:11-20). What a new buffer holds is not known: `junk`. -/
def camlString (junk : Nat → Nat) (s : List Nat) : Option (List Nat) := fill ((List.range (lengthAux s 0)).map junk) 0 s

/-- The loop of `bytestring_of_caml_string` (caml_bytestring.ml:22-26), with the next position, counted from 1. -/
def byteStringAux (s : List Nat) : List Nat → Nat → Option (List Nat)
  | acc, 0 => some acc
  | acc, i + 1 => match s[i]? with
    | some c => match byteOfChar c with
      | some b => byteStringAux s (b :: acc) i
      | none => none
    | none => none

/-- `bytestring_of_caml_string`. -/
def byteString (s : List Nat) : Option (List Nat) := byteStringAux s [] s.length

/-- `Ascii.ascii_of_N` and `N_of_ascii` (Rocq's library): the eight lowest bits. -/
def pVal8 : Pos → Nat
  | .xI p => 2 * pVal8 p + 1
  | .xO p => 2 * pVal8 p
  | .xH => 1
def asciiOfN : N → Nat
  | .N0 => 0
  | .Npos p => pVal8 p % 256

/-- `ascii_of_char` (camlrocq.ml:392-394). -/
def asciiOfChar (c : Nat) : Nat := asciiOfN (nOfInt c)

/-- The loop of `coqstring_of_camlstring` (camlrocq.ml:405-409). -/
def coqStringAux (s : List Nat) : List Nat → Nat → Option (List Nat)
  | acc, 0 => some acc
  | acc, i + 1 => match s[i]? with
    | some c => coqStringAux s (asciiOfChar c :: acc) i
    | none => none

/-- `coqstring_of_camlstring`. -/
def coqString (s : List Nat) : Option (List Nat) := coqStringAux s [] s.length

end Bnd
