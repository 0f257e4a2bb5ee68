import Verif.Reg.Model

/-!
# The libraries of C functions

The constants that the libraries of the plugin register, and the C functions of the runtime that realise them.

Simplifications: of the types of the constants (in Rocq's library, or in plugin/GMP.v:13-36 and plugin/RocqMsgFFI.v:4-7) the number of arguments is kept; a
constant is named by its library and its last component; all parameters but the thread are values.  `prim_int63.h` and the other headers name values by synonyms.
-/

namespace Lib

open Reg (Ty Prim interp)

/-- A line of `CertiRocq Register`: constant, type, C function, given arity, `with tinfo`. -/
structure Entry where
  const : List Char
  ty : Ty
  target : List Char
  arity : Option Nat
  tinfo : Bool

/-- A type with `n` arguments. -/
def arrows : Nat → Ty
  | 0 => .other
  | n + 1 => .prod (arrows n)

/-- A line for a constant with `n` arguments. -/
def entry (const : String) (n : Nat) (target : String) (arity : Option Nat) (tinfo : Bool) : Entry := ⟨const.toList, arrows n, target.toList, arity, tinfo⟩

/-- The parameters of a C function: whether the first is the thread, and how many values follow. -/
structure Sig where
  name : List Char
  tinfo : Bool
  params : Nat
  deriving DecidableEq

/-- A C function. -/
def sig (name : String) (tinfo : Bool) (params : Nat) : Sig := ⟨name.toList, tinfo, params⟩

/-- plugin/PrimInt63.v:5-35. -/
def int63 : List Entry :=
  [entry "PrimInt63.int" 0 "erased" none false,
   entry "PrimInt63.add" 2 "prim_int63_add" none false,
   entry "PrimInt63.land" 2 "prim_int63_land" none false,
   entry "PrimInt63.lor" 2 "prim_int63_lor" none false,
   entry "PrimInt63.lxor" 2 "prim_int63_lxor" none false,
   entry "PrimInt63.lsr" 2 "prim_int63_lsr" none false,
   entry "PrimInt63.lsl" 2 "prim_int63_lsl" none false,
   entry "PrimInt63.eqb" 2 "prim_int63_eqb" none false,
   entry "PrimInt63.head0" 1 "prim_int63_head0" none false,
   entry "PrimInt63.tail0" 1 "prim_int63_tail0" none false,
   entry "PrimInt63.compare" 2 "prim_int63_compare" none false,
   entry "PrimInt63.compares" 2 "prim_int63_compare" none false,
   entry "PrimInt63.asr" 2 "prim_int63_asr" none false,
   entry "PrimInt63.subc" 2 "prim_int63_subc" none true,
   entry "PrimInt63.sub" 2 "prim_int63_sub" none false,
   entry "PrimInt63.addc" 2 "prim_int63_addc" none true,
   entry "PrimInt63.addcarryc" 2 "prim_int63_addcarryc" none true,
   entry "PrimInt63.subcarryc" 2 "prim_int63_subcarryc" none true,
   entry "PrimInt63.mulc" 2 "prim_int63_mulc" none true,
   entry "PrimInt63.mul" 2 "prim_int63_mul" none false,
   entry "PrimInt63.div" 2 "prim_int63_div" none false,
   entry "PrimInt63.divs" 2 "prim_int63_divs" none false,
   entry "PrimInt63.mod" 2 "prim_int63_mod" none false,
   entry "PrimInt63.mods" 2 "prim_int63_mods" none false,
   entry "PrimInt63.diveucl_21" 3 "prim_int63_diveucl_21" none true,
   entry "PrimInt63.diveucl" 2 "prim_int63_diveucl" none true,
   entry "PrimInt63.addmuldiv" 3 "prim_int63_addmuldiv" none false,
   entry "PrimInt63.leb" 2 "prim_int63_leb" none false,
   entry "PrimInt63.ltb" 2 "prim_int63_ltb" none false,
   entry "PrimInt63.lesb" 2 "prim_int63_lesb" none false,
   entry "PrimInt63.ltsb" 2 "prim_int63_ltsb" none false]

/-- plugin/PrimFloats.v:5-23. -/
def floats : List Entry :=
  [entry "PrimFloat.float" 0 "erased" none false,
   entry "PrimFloat.compare" 2 "prim_float_compare" none false,
   entry "PrimFloat.eqb" 2 "prim_float_eqb" none false,
   entry "PrimFloat.ltb" 2 "prim_float_ltb" none false,
   entry "PrimFloat.leb" 2 "prim_float_leb" none false,
   entry "PrimFloat.frshiftexp" 1 "prim_float_frshiftexp" none true,
   entry "PrimFloat.ldshiftexp" 2 "prim_float_ldshiftexp" none true,
   entry "PrimFloat.normfr_mantissa" 1 "prim_float_normfr_mantissa" none false,
   entry "PrimFloat.classify" 1 "prim_float_classify" none false,
   entry "PrimFloat.abs" 1 "prim_float_abs" none true,
   entry "PrimFloat.sqrt" 1 "prim_float_sqrt" none true,
   entry "PrimFloat.opp" 1 "prim_float_opp" none true,
   entry "PrimFloat.div" 2 "prim_float_div" none true,
   entry "PrimFloat.mul" 2 "prim_float_mul" none true,
   entry "PrimFloat.add" 2 "prim_float_add" none true,
   entry "PrimFloat.sub" 2 "prim_float_sub" none true,
   entry "PrimFloat.of_uint63" 1 "prim_float_of_uint63" none true,
   entry "PrimFloat.next_up" 1 "prim_float_next_up" none true,
   entry "PrimFloat.next_down" 1 "prim_float_next_down" none true]

/-- plugin/PrimString.v:14-26. -/
def strings : List Entry :=
  [entry "PrimString.compare" 2 "prim_string_compare" none false,
   entry "PrimString.get" 2 "prim_string_get" none false,
   entry "PrimString.length" 1 "prim_string_length" none false,
   entry "PrimString.max_length" 0 "prim_string_max_length" none false,
   entry "PrimString.make" 2 "prim_string_make" none true,
   entry "PrimString.sub" 3 "prim_string_sub" none true,
   entry "PrimString.cat" 2 "prim_string_cat" none true]

/-- plugin/GMP.v:66-102. -/
def gmp : List Entry :=
  [entry "GMP.t" 0 "erased" none false,
   entry "GMP.zero" 0 "z_zero" none false,
   entry "GMP.one" 0 "z_one" none false,
   entry "GMP.nat_case" 4 "z_nat_case" (some 3) true,
   entry "GMP.nat_case_dummy" 4 "z_nat_case_untyped_erasure" none true,
   entry "GMP.succ" 1 "z_succ" none true,
   entry "GMP.pred" 1 "z_pred" none true,
   entry "GMP.nat_pred" 1 "z_nat_pred" none true,
   entry "GMP.abs" 1 "z_abs" none true,
   entry "GMP.neg" 1 "z_neg" none true,
   entry "GMP.add" 2 "z_add" none true,
   entry "GMP.sub" 2 "z_sub" none true,
   entry "GMP.mul" 2 "z_mul" none true,
   entry "GMP.div" 2 "z_div" none true,
   entry "GMP.rem" 2 "z_rem" none true,
   entry "GMP.pow" 2 "z_pow" none true,
   entry "GMP.logand" 2 "z_logand" none true,
   entry "GMP.logor" 2 "z_logor" none true,
   entry "GMP.logxor" 2 "z_logxor" none true,
   entry "GMP.lognot" 1 "z_lognot" none true,
   entry "GMP.max" 2 "z_max" none false,
   entry "GMP.min" 2 "z_min" none false,
   entry "GMP.leq" 2 "z_leq" none false,
   entry "GMP.geq" 2 "z_geq" none false,
   entry "GMP.lt" 2 "z_lt" none false,
   entry "GMP.gt" 2 "z_gt" none false,
   entry "GMP.compare" 2 "z_compare" none false,
   entry "GMP.of_int" 1 "z_of_int" none false,
   entry "GMP.of_string" 1 "z_of_string" none true,
   entry "GMP.to_string" 1 "z_to_string" none true,
   entry "GMP.equal" 2 "z_equal" none false]

/-- plugin/RocqMsgFFI.v:10-13. -/
def messages : List Entry :=
  [entry "RocqMsgFFI.msg_info" 1 "rocq_msg_info" none false,
   entry "RocqMsgFFI.msg_notice" 1 "rocq_msg_notice" none false,
   entry "RocqMsgFFI.msg_debug" 1 "rocq_msg_debug" none false,
   entry "RocqMsgFFI.user_error" 1 "rocq_user_error" none false]

/-- The definitions of the functions that are registered (runtime/prim_int63.c:14-427, prim_floats.c:44-261, prim_string.c:22-147, certirocq_gmp.c:80-478,
rocq_c_ffi.c:36-57): the name, whether the first parameter is the thread, and the number of the other parameters, which are all values. -/
def definitions : List Sig :=
  [sig "prim_int63_add" false 2,
   sig "prim_int63_sub" false 2,
   sig "prim_int63_mul" false 2,
   sig "prim_int63_mod" false 2,
   sig "prim_int63_div" false 2,
   sig "prim_int63_mods" false 2,
   sig "prim_int63_divs" false 2,
   sig "prim_int63_land" false 2,
   sig "prim_int63_lsl" false 2,
   sig "prim_int63_lsr" false 2,
   sig "prim_int63_asr" false 2,
   sig "prim_int63_lor" false 2,
   sig "prim_int63_lxor" false 2,
   sig "prim_int63_head0" false 1,
   sig "prim_int63_tail0" false 1,
   sig "prim_int63_eqb" false 2,
   sig "prim_int63_leb" false 2,
   sig "prim_int63_lesb" false 2,
   sig "prim_int63_ltb" false 2,
   sig "prim_int63_ltsb" false 2,
   sig "prim_int63_compare" false 2,
   sig "prim_int63_addc" true 2,
   sig "prim_int63_addcarryc" true 2,
   sig "prim_int63_subc" true 2,
   sig "prim_int63_subcarryc" true 2,
   sig "prim_int63_mulc" true 2,
   sig "prim_int63_diveucl_21" true 3,
   sig "prim_int63_diveucl" true 2,
   sig "prim_int63_addmuldiv" false 3,
   sig "prim_float_compare" false 2,
   sig "prim_float_eqb" false 2,
   sig "prim_float_ltb" false 2,
   sig "prim_float_leb" false 2,
   sig "prim_float_frshiftexp" true 1,
   sig "prim_float_ldshiftexp" true 2,
   sig "prim_float_normfr_mantissa" false 1,
   sig "prim_float_classify" false 1,
   sig "prim_float_abs" true 1,
   sig "prim_float_sqrt" true 1,
   sig "prim_float_opp" true 1,
   sig "prim_float_div" true 2,
   sig "prim_float_mul" true 2,
   sig "prim_float_add" true 2,
   sig "prim_float_sub" true 2,
   sig "prim_float_of_uint63" true 1,
   sig "prim_float_next_up" true 1,
   sig "prim_float_next_down" true 1,
   sig "prim_string_compare" false 2,
   sig "prim_string_get" false 2,
   sig "prim_string_length" false 1,
   sig "prim_string_max_length" false 0,
   sig "prim_string_make" true 2,
   sig "prim_string_sub" true 3,
   sig "prim_string_cat" true 2,
   sig "z_zero" false 0,
   sig "z_one" false 0,
   sig "z_succ" true 1,
   sig "z_pred" true 1,
   sig "z_nat_pred" true 1,
   sig "z_nat_case" true 3,
   sig "z_nat_case_untyped_erasure" true 4,
   sig "z_abs" true 1,
   sig "z_neg" true 1,
   sig "z_add" true 2,
   sig "z_sub" true 2,
   sig "z_mul" true 2,
   sig "z_div" true 2,
   sig "z_rem" true 2,
   sig "z_pow" true 2,
   sig "z_logand" true 2,
   sig "z_logor" true 2,
   sig "z_logxor" true 2,
   sig "z_lognot" true 1,
   sig "z_compare" false 2,
   sig "z_equal" false 2,
   sig "z_leq" false 2,
   sig "z_geq" false 2,
   sig "z_gt" false 2,
   sig "z_lt" false 2,
   sig "z_max" false 2,
   sig "z_min" false 2,
   sig "z_of_int" false 1,
   sig "z_of_string" true 1,
   sig "z_to_string" true 1,
   sig "rocq_msg_info" false 1,
   sig "rocq_user_error" false 1,
   sig "rocq_msg_debug" false 1,
   sig "rocq_msg_notice" false 1]

/-- The declarations of these functions in the headers (runtime/prim_int63.h:15-53, prim_floats.h:15-35, prim_string.h:17-23, certirocq_gmp.h:15-50,
rocq_c_ffi.h:3-6): the name, whether the first parameter is the thread, and the number of the other parameters, which are all values. -/
def declarations : List Sig :=
  [sig "prim_int63_add" false 2,
   sig "prim_int63_sub" false 2,
   sig "prim_int63_mul" false 2,
   sig "prim_int63_mod" false 2,
   sig "prim_int63_div" false 2,
   sig "prim_int63_mods" false 2,
   sig "prim_int63_divs" false 2,
   sig "prim_int63_land" false 2,
   sig "prim_int63_lsl" false 2,
   sig "prim_int63_lsr" false 2,
   sig "prim_int63_lor" false 2,
   sig "prim_int63_lxor" false 2,
   sig "prim_int63_asr" false 2,
   sig "prim_int63_head0" false 1,
   sig "prim_int63_tail0" false 1,
   sig "prim_int63_eqb" false 2,
   sig "prim_int63_leb" false 2,
   sig "prim_int63_ltb" false 2,
   sig "prim_int63_lesb" false 2,
   sig "prim_int63_ltsb" false 2,
   sig "prim_int63_compare" false 2,
   sig "prim_int63_addc" true 2,
   sig "prim_int63_addcarryc" true 2,
   sig "prim_int63_subc" true 2,
   sig "prim_int63_subcarryc" true 2,
   sig "prim_int63_mulc" true 2,
   sig "prim_int63_diveucl_21" true 3,
   sig "prim_int63_diveucl" true 2,
   sig "prim_int63_addmuldiv" false 3,
   sig "prim_float_compare" false 2,
   sig "prim_float_eqb" false 2,
   sig "prim_float_ltb" false 2,
   sig "prim_float_leb" false 2,
   sig "prim_float_frshiftexp" true 1,
   sig "prim_float_ldshiftexp" true 2,
   sig "prim_float_normfr_mantissa" false 1,
   sig "prim_float_classify" false 1,
   sig "prim_float_div" true 2,
   sig "prim_float_abs" true 1,
   sig "prim_float_sqrt" true 1,
   sig "prim_float_opp" true 1,
   sig "prim_float_mul" true 2,
   sig "prim_float_add" true 2,
   sig "prim_float_sub" true 2,
   sig "prim_float_of_uint63" true 1,
   sig "prim_float_next_up" true 1,
   sig "prim_float_next_down" true 1,
   sig "prim_string_compare" false 1,
   sig "prim_string_get" false 2,
   sig "prim_string_length" false 1,
   sig "prim_string_max_length" false 0,
   sig "prim_string_make" false 2,
   sig "prim_string_sub" false 3,
   sig "prim_string_cat" false 2,
   sig "z_zero" false 0,
   sig "z_one" false 0,
   sig "z_succ" true 1,
   sig "z_pred" true 1,
   sig "z_nat_pred" true 1,
   sig "z_nat_case" true 3,
   sig "z_nat_case_untyped_erasure" true 4,
   sig "z_abs" true 1,
   sig "z_neg" true 1,
   sig "z_add" true 2,
   sig "z_sub" true 2,
   sig "z_mul" true 2,
   sig "z_div" true 2,
   sig "z_rem" true 2,
   sig "z_pow" true 2,
   sig "z_logand" true 2,
   sig "z_logor" true 2,
   sig "z_logxor" true 2,
   sig "z_lognot" true 1,
   sig "z_max" false 2,
   sig "z_min" false 2,
   sig "z_leq" false 2,
   sig "z_geq" false 2,
   sig "z_gt" false 2,
   sig "z_lt" false 2,
   sig "z_compare" false 2,
   sig "z_equal" false 2,
   sig "z_of_int" false 1,
   sig "z_of_string" true 1,
   sig "z_to_string" true 1,
   sig "rocq_msg_debug" false 1,
   sig "rocq_msg_info" false 1,
   sig "rocq_msg_notice" false 1,
   sig "rocq_user_error" false 1]

/-- The libraries. -/
def libraries : List (List Entry) := [int63, floats, strings, gmp, messages]

/-- What a library registers (g_certirocq.mlg:70-83); `num` numbers the constants. -/
def Entry.prim (num : List Char → Nat) (e : Entry) : Prim := interp (num e.const) e.ty e.target e.arity e.tinfo

/-- The registrations of a session that has loaded libraries. -/
def session (num : List Char → Nat) (ls : List (List Entry)) : List (List Prim) := ls.map fun l => l.map (Entry.prim num)

end Lib
