import Verif.Basic
/-! Model of the WebAssembly operator table: data/wasm_operators.yaml (the entries that are not commented
out), from which core/include/Ab/Wasm/OpCode.hpp.jinja generates `OpCode`, `OP_NAME` and `opDispatch`. -/
namespace Ab.Wasm

/-- The operators: code and name (data/wasm_operators.yaml:11-487). -/
def operators : List (Nat × String) :=
  [(0x00, "unreachable"), (0x01, "nop"), (0x02, "block"), (0x03, "loop"), (0x04, "if"), (0x05, "else"),
   (0x0b, "end"), (0x0c, "br"), (0x0d, "br_if"), (0x0e, "br_table"), (0x0f, "return"), (0x10, "call"),
   (0x11, "call_indirect"), (0x1a, "drop"), (0x1b, "select"), (0x20, "get_local"), (0x21, "set_local"),
   (0x22, "tee_local"), (0x23, "get_global"), (0x24, "set_global"), (0x28, "i32_load"), (0x29, "i64_load"),
   (0x2a, "f32_load"), (0x2b, "f64_load"), (0x2c, "i32_load8_s"), (0x2d, "i32_load8_u"),
   (0x2e, "i32_load16_s"), (0x2f, "i32_load16_u"), (0x30, "i64_load8_s"), (0x31, "i64_load8_u"),
   (0x32, "i64_load16_s"), (0x33, "i64_load16_u"), (0x34, "i64_load32_s"), (0x35, "i64_load32_u"),
   (0x36, "i32_store"), (0x37, "i64_store"), (0x38, "f32_store"), (0x39, "f64_store"), (0x3a, "i32_store8"),
   (0x3b, "i32_store16"), (0x3c, "i64_store8"), (0x3d, "i64_store16"), (0x3e, "i64_store32"),
   (0x41, "i32_const"), (0x42, "i64_const"), (0x43, "f32_const"), (0x44, "f64_const"), (0x45, "i32_eqz"),
   (0x46, "i32_eq"), (0x47, "i32_ne"), (0x48, "i32_lt_s"), (0x49, "i32_lt_u"), (0x4a, "i32_gt_s"),
   (0x4b, "i32_gt_u"), (0x4c, "i32_le_s"), (0x4d, "i32_le_u"), (0x4e, "i32_ge_s"), (0x4f, "i32_ge_u"),
   (0x50, "i64_eqz"), (0x51, "i64_eq"), (0x52, "i64_ne"), (0x53, "i64_lt_s"), (0x54, "i64_lt_u"),
   (0x55, "i64_gt_s"), (0x56, "i64_gt_u"), (0x57, "i64_le_s"), (0x58, "i64_le_u"), (0x59, "i64_ge_s"),
   (0x5a, "i64_ge_u"), (0x5b, "f32_eq"), (0x5c, "f32_ne"), (0x5d, "f32_lt"), (0x5e, "f32_gt"),
   (0x5f, "f32_le"), (0x60, "f32_ge"), (0x61, "f64_eq"), (0x62, "f64_ne"), (0x63, "f64_lt"),
   (0x64, "f64_gt"), (0x65, "f64_le"), (0x66, "f64_ge"), (0x67, "i32_clz"), (0x68, "i32_ctz"),
   (0x69, "i32_popcnt"), (0x6a, "i32_add"), (0x6b, "i32_sub"), (0x6c, "i32_mul"), (0x6d, "i32_div_s"),
   (0x6e, "i32_div_u"), (0x6f, "i32_rem_s"), (0x70, "i32_rem_u"), (0x71, "i32_and"), (0x72, "i32_or"),
   (0x73, "i32_xor"), (0x74, "i32_shl"), (0x75, "i32_shr_s"), (0x76, "i32_shr_u"), (0x77, "i32_rotl"),
   (0x78, "i32_rotr"), (0x79, "i64_clz"), (0x7a, "i64_ctz"), (0x7b, "i64_popcnt"), (0x7c, "i64_add"),
   (0x7d, "i64_sub"), (0x7e, "i64_mul"), (0x7f, "i64_div_s"), (0x80, "i64_div_u"), (0x81, "i64_rem_s"),
   (0x82, "i64_rem_u"), (0x83, "i64_and"), (0x84, "i64_or"), (0x85, "i64_xor"), (0x86, "i64_shl"),
   (0x87, "i64_shr_s"), (0x88, "i64_shr_u"), (0x89, "i64_rotl"), (0x8a, "i64_rotr"), (0x8b, "f32_abs"),
   (0x8c, "f32_neg"), (0x8d, "f32_ceil"), (0x8e, "f32_floor"), (0x8f, "f32_trunc"), (0x90, "f32_nearest"),
   (0x91, "f32_sqrt"), (0x92, "f32_add"), (0x93, "f32_sub"), (0x94, "f32_mul"), (0x95, "f32_div"),
   (0x96, "f32_min"), (0x97, "f32_max"), (0x98, "f32_copysign"), (0x99, "f64_abs"), (0x9a, "f64_neg"),
   (0x9b, "f64_ceil"), (0x9c, "f64_floor"), (0x9d, "f64_trunc"), (0x9e, "f64_nearest"), (0x9f, "f64_sqrt"),
   (0xa0, "f64_add"), (0xa1, "f64_sub"), (0xa2, "f64_mul"), (0xa3, "f64_div"), (0xa4, "f64_min"),
   (0xa5, "f64_max"), (0xa6, "f64_copysign")]

/-- `OP_NAME` (OpCode.hpp.jinja:24-28) of an operator in the table. -/
def opName (op : Byte) : Option String := operators.lookup op.toNat

end Ab.Wasm
