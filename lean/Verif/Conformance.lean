import Verif.Parser
import Verif.Sem.PreludeEnv
import Verif.Sem.Lower
/-!
# The model and the project's own test suite

Not proofs of anything about the code: tests of the model. Every specification in
`/repo/protospec-build/tests` that is compiled into the test suite is run through the modelled tokenizer,
parser, conversion and generators' view, and must be accepted or rejected as the test there expects (`#guard` runs the model; no theorem rests on it).
Generated by `tools/conformance.py`; `testEnv` models `TestImportResolver` and `MockImportResolver` of
`tests/mod.rs` 23-225 behind `PreludeImportResolver`.
-/
namespace Verif.Conformance
open Verif Sem

/-- `tests/mod.rs` 92-111. -/
def isU32 : AType → Bool
  | .scalar s => s.scalar == .u32
  | _ => false

def testFrom (name : String) (h : Heap) (t : AType) : R Bool :=
  if name = "test_type" then .ok (isU32 t) else preludeFrom name h t
def testTo (name : String) (h : Heap) (t : AType) : R Bool :=
  if name = "test_type" then .ok (isU32 t) else preludeTo name h t
/-- `ffi/type_.rs` 47-58 for `test_type`. -/
def testToPartial (name : String) (h : Heap) (P : PType) : R Bool :=
  if name = "test_type" then
    match P with
    | .type t => testTo name h t
    | .any => .ok true
    | .scalar (.some k) => testTo name h (.scalar k.toE)
    | .scalar (.defaults k) => testTo name h (.scalar k.toE)
    | _ => .ok false
  else preludeToPartial name h P

/-- The resolver of the tests; `modules` are the sources of `MockImportResolver`. -/
def testEnv (modules : List (String × String)) : Env :=
  { preludeEnv [] with
    ftFrom := testFrom
    ftTo := testTo
    ftToPartial := testToPartial
    load := fun n => .ok ((IMap.get modules n).map fun s =>
      match parse (ascii s) with
      | .ok a => some a
      | .error _ => none)
    ffiType := fun n => if n = "test_type" then .ok (some []) else .ok (builtinType n)
    ffiTransform := fun n =>
      if n = "test_transform" then .ok (some [⟨"offset", some (.scalar Scalar.u8.toE), true⟩])
      else (preludeEnv []).ffiTransform n }

/-- What a test calls. -/
inductive Call
  /-- `parse(..)` -/
  | parse
  /-- `load_asg(..)`, `load_asg_with(..)` -/
  | loadAsg
  /-- `load_asg(..)` and `compile_program(..)` -/
  | compile

/-- Whether it succeeds; no answer if the model panics, diverges or does not cover it. -/
def outcome (c : Call) (modules : List (String × String)) (src : String) : Option Bool :=
  match Verif.parse (ascii src) with
  | .error (.unexpected _) | .error .eof | .error (.token _) => some false
  | .error .panic | .error .diverge => none
  | .error _ => some false
  | .ok ast =>
    match c with
    | .parse => some true
    | c =>
      match convert (testEnv modules) 5 ast, c with
      | .error (.asg _), _ => some false
      | .error _, _ => none
      | .ok (p, h, _), .compile =>
        match lowerTypes true h 9 p.types with
        | .ok _ => some true
        | .error _ => none
      | .ok _, _ => some true

/-- `tests/semantic/fail/import.rs` (`base_import`). -/
def modules_semantic_fail_import_rs : List (String × String) :=
  [("test-import", "\n\n    import_ffi test_transform as transform;\n    import_ffi test_type as type;\n\n    type test_container = container {\n        len: u32,\n        buf: u8[len*2],\n    };\n\n    type test_container2 = container {\n        data: test_type -> test_transform[2],\n    };\n    "),
   ("malformed", ";")]

/-- `tests/semantic/pass/import.rs` (`base_import`). -/
def modules_semantic_pass_import_rs : List (String × String) :=
  [("test-import", "\n\n    import_ffi test_transform as transform;\n    import_ffi test_type as type;\n\n    type test_container = container {\n        len: u32,\n        buf: u8[len*2],\n    };\n\n    type test_container2 = container {\n        data: test_type[2] -> test_transform,\n    };\n    ")]

/-! ## tests/parse/fail/const_decl.rs -/

-- `test_const_no_type`
#guard outcome .parse []
    "\n    const TEST = 5;\n    " == some false

-- `test_const_empty_type`
#guard outcome .parse []
    "\n    const TEST: = 5;\n    " == some false

-- `test_const_invalid_type`
#guard outcome .parse []
    "\n    const TEST: type = 5;\n    " == some false

-- `test_const_no_value`
#guard outcome .parse []
    "\n    const TEST: u32 =;\n    " == some false

-- `test_const_no_eq`
#guard outcome .parse []
    "\n    const TEST: u32 5;\n    " == some false

-- `test_const_bad_ident`
#guard outcome .parse []
    "\n    const $TEST: u32 = 5;\n    " == some false

-- `test_const_transform`
#guard outcome .parse []
    "\n    const TEST: u32 -> gzip = \"test\";\n    " == some false

/-! ## tests/parse/fail/expr.rs -/

-- `test_int_broken`
#guard outcome .parse []
    "\n    const _: u32 = 5x5;\n    " == some false

-- `test_string_hang`
#guard outcome .parse []
    "\n    const _: u32 = \"te\\\";\n    " == some false

-- `test_bad_ident`
#guard outcome .parse []
    "\n    const _: u32 = $test;\n    " == some false

-- `test_paren_hang`
#guard outcome .parse []
    "\n    const _: u32 = (5;\n    " == some false

-- `test_array_index_empty`
#guard outcome .parse []
    "\n    const _: u32 = test[];\n    " == some false

-- `test_negate_hang`
#guard outcome .parse []
    "\n    const _: u32 = -;\n    " == some false

-- `test_not_hang`
#guard outcome .parse []
    "\n    const _: u32 = !!;\n    " == some false

-- `test_or_hang`
#guard outcome .parse []
    "\n    const _: u32 = true ||;\n    " == some false

-- `test_ternary_unterm`
#guard outcome .parse []
    "\n    const _: u32 = true ? false ? 3 : 2;\n    " == some false

/-! ## tests/parse/fail/ffi.rs -/

-- `test_ffi_type_missing_type`
#guard outcome .parse []
    "\n    import_ffi test as;\n    " == some false

-- `test_ffi_type_invalid_type`
#guard outcome .parse []
    "\n    import_ffi test as test;\n    " == some false

-- `test_ffi_type_missing_as`
#guard outcome .parse []
    "\n    import_ffi test type;\n    " == some false

-- `test_ffi_type_missing_name`
#guard outcome .parse []
    "\n    import_ffi as transform;\n    " == some false

/-! ## tests/parse/fail/import.rs -/

-- `test_import_ident_from`
#guard outcome .parse []
    "\n    import test from t;\n    " == some false

-- `test_import_missing_from`
#guard outcome .parse []
    "\n    import test \"t\";\n    " == some false

-- `test_import_missing_from_clause`
#guard outcome .parse []
    "\n    import test;\n    " == some false

-- `test_import_empty`
#guard outcome .parse []
    "\n    import from \"t\";\n    " == some false

/-! ## tests/parse/fail/type_decl.rs -/

-- `test_semicolon`
#guard outcome .parse []
    "\n    type test = u32\n    " == some false

-- `test_no_name`
#guard outcome .parse []
    "\n    type = u32;\n    " == some false

-- `test_bad_name`
#guard outcome .parse []
    "\n    type type = u32;\n    " == some false

-- `test_type_undefined`
#guard outcome .parse []
    "\n    type t;\n    " == some false

-- `test_type_hanging`
#guard outcome .parse []
    "\n    type t = ;\n    " == some false

-- `test_container_empty_length`
#guard outcome .parse []
    "\n    type test = container [] {\n        west: u32,\n    };\n    " == some false

-- `test_enum_no_init`
#guard outcome .parse []
    "\n    type test = enum i32 {\n        test,\n        west,\n        east,\n        north = 6,\n        south,\n    };\n    " == some false

-- `test_conditional_empty`
#guard outcome .parse []
    "\n    type test = container {\n        len: u32,\n        data: u8[len] { },\n    };\n    " == some false

-- `test_array_empty`
#guard outcome .parse []
    "\n    type test = container {\n        data: u8[],\n    };\n    " == some false

-- `test_transform_hanging`
#guard outcome .parse []
    "\n    type test = container {\n        data: u8[..] ->,\n    };\n    " == some false

-- `test_transform2_hanging`
#guard outcome .parse []
    "\n    type test = container {\n        data: u8[..] -> -> encrypt,\n    };\n    " == some false

-- `test_transform_conditional_array_hanging`
#guard outcome .parse []
    "\n    type test = container {\n        len: u32,\n        is_present: bool,\n        data: u8[6] { is_present } -> gzip -> [..],\n    };\n    " == some false

-- `test_transform_conditional_transform_empty`
#guard outcome .parse []
    "\n    type test = container {\n        len: u32,\n        is_present: bool,\n        is_encrypted: bool,\n        data: u8[6] { is_present } -> gzip -> encrypt {},\n    };\n    " == some false

/-! ## tests/parse/pass/const_decl.rs -/

-- `test_const`
#guard outcome .parse []
    "\n    const TEST: u32 = 5;\n    " == some true

-- `test_enum_const`
#guard outcome .parse []
    "\n    type color = enum i32 {\n        red = 1,\n        green,\n        blue,\n    };\n    const TEST: color = 5;\n    " == some true

/-! ## tests/parse/pass/expr.rs -/

-- `test_int`
#guard outcome .parse []
    "\n    const _: u32 = 5;\n    " == some true

-- `test_hex_int`
#guard outcome .parse []
    "\n    const _: u32 = 0x5FF;\n    " == some true

-- `test_string`
#guard outcome .parse []
    "\n    const _: u32 = \"test\";\n    " == some true

-- `test_string_escaped`
#guard outcome .parse []
    "\n    const _: u32 = \"te\\\"st\";\n    " == some true

-- `test_ident`
#guard outcome .parse []
    "\n    const _: u32 = test;\n    " == some true

-- `test_paren`
#guard outcome .parse []
    "\n    const _: u32 = (5);\n    " == some true

-- `test_array_index`
#guard outcome .parse []
    "\n    const _: u32 = test[1];\n    " == some true

-- `test_member`
#guard outcome .parse []
    "\n    const _: u32 = test[5].west;\n    const _: u32 = test.west;\n    " == some true

-- `test_array_index_expr`
#guard outcome .parse []
    "\n    const _: u32 = test[1 + 1];\n    " == some true

-- `test_negate`
#guard outcome .parse []
    "\n    const _: u32 = --1;\n    " == some true

-- `test_not`
#guard outcome .parse []
    "\n    const _: u32 = !!false;\n    " == some true

-- `test_bitnot`
#guard outcome .parse []
    "\n    const _: u32 = ~~1;\n    " == some true

-- `test_bitnot_negate`
#guard outcome .parse []
    "\n    const _: u32 = ~-~-1;\n    " == some true

-- `test_cast`
#guard outcome .parse []
    "\n    const _: u32 = 1 :> i32 :> u32 :> test;\n    " == some true

-- `test_mul`
#guard outcome .parse []
    "\n    const _: u32 = 1 * 2 / 3 % 4;\n    " == some true

-- `test_add`
#guard outcome .parse []
    "\n    const _: u32 = 1 + 3 - 2;\n    " == some true

-- `test_shift`
#guard outcome .parse []
    "\n    const _: u32 = 1 << 5 >> 1 >>> 1;\n    " == some true

-- `test_rel`
#guard outcome .parse []
    "\n    const _: u32 = 2 > 1 && 1 < 2 && 2 <= 2 && 2 >= 2;\n    " == some true

-- `test_eq`
#guard outcome .parse []
    "\n    const _: u32 = 5 == 2 != false;\n    " == some true

-- `test_bit_and`
#guard outcome .parse []
    "\n    const _: u32 = 5 & 2;\n    " == some true

-- `test_bit_xor`
#guard outcome .parse []
    "\n    const _: u32 = 5 ^ 2;\n    " == some true

-- `test_bit_or`
#guard outcome .parse []
    "\n    const _: u32 = 5 | 8;\n    " == some true

-- `test_and`
#guard outcome .parse []
    "\n    const _: u32 = true && false;\n    " == some true

-- `test_or`
#guard outcome .parse []
    "\n    const _: u32 = true || false;\n    " == some true

-- `test_ternary`
#guard outcome .parse []
    "\n    const _: u32 = true ? false ? 3 : 2 : 1;\n    " == some true

/-! ## tests/parse/pass/ffi.rs -/

-- `test_ffi_type`
#guard outcome .parse []
    "\n    import_ffi test as type;\n    " == some true

-- `test_ffi_transform`
#guard outcome .parse []
    "\n    import_ffi test as transform;\n    " == some true

/-! ## tests/parse/pass/import.rs -/

-- `test_import`
#guard outcome .parse []
    "\n    import test from \"t\";\n    " == some true

-- `test_import_many`
#guard outcome .parse []
    "\n    import test, west from \"t\";\n    " == some true

-- `test_import_many_trailing`
#guard outcome .parse []
    "\n    import test, west, from \"t\";\n    " == some true

/-! ## tests/parse/pass/type_decl.rs -/

-- `test_basic`
#guard outcome .parse []
    "\n    type test = u32;\n    " == some true

-- `test_container`
#guard outcome .parse []
    "\n    type test = container {\n        west: u32,\n    };\n    " == some true

-- `test_container_le`
#guard outcome .parse []
    "\n    type test = container {\n        west: u32le,\n    };\n    " == some true

-- `test_container_empty`
#guard outcome .parse []
    "\n    type test = container {};\n    " == some true

-- `test_container_no_trailing`
#guard outcome .parse []
    "\n    type test = container {\n        west: u32\n    };\n    " == some true

-- `test_nested_container`
#guard outcome .parse []
    "\n    type test = container {\n        west: container {\n            east: u32,\n        },\n    };\n    " == some true

-- `test_container_pad`
#guard outcome .parse []
    "\n    type test = container {\n        x: u32,\n        .pad: 5,\n    };\n    " == some true

-- `test_container_length_expand`
#guard outcome .parse []
    "\n    type test = container {\n        west: u32,\n    } [..];\n    " == some true

-- `test_container_length`
#guard outcome .parse []
    "\n    type test = container [5] {\n        west: u32,\n    };\n    " == some true

-- `test_container_array`
#guard outcome .parse []
    "\n    type test = container [5] {\n        west: u8[4],\n    };\n    " == some true

-- `test_array_container_array`
#guard outcome .parse []
    "\n    type test = container [5] {\n        west: u8[4],\n    }[3];\n    " == some true

-- `test_array`
#guard outcome .parse []
    "\n    type test = u8[4];\n    " == some true

-- `test_array_2d`
#guard outcome .parse []
    "\n    type test = u8[4][3];\n    " == some true

-- `test_float`
#guard outcome .parse []
    "\n    type test = f32;\n    " == some true

-- `test_bool`
#guard outcome .parse []
    "\n    type test = bool;\n    " == some true

-- `test_bitfield`
#guard outcome .parse []
    "\n    type test = bitfield i32 {\n        test = 1,\n        west,\n        east,\n        north,\n        south,\n    };\n    " == some true

-- `test_enum`
#guard outcome .parse []
    "\n    type test = enum i32 {\n        test = 1,\n        west,\n        east,\n        north = 6,\n        south,\n    };\n    " == some true

-- `test_enum_no_trailing`
#guard outcome .parse []
    "\n    type test = enum i32 {\n        test = 1,\n        west,\n        east,\n        north = 6,\n        south\n    };\n    " == some true

-- `test_enum_array`
#guard outcome .parse []
    "\n    type test = enum i32 {\n        test = 1,\n        west,\n        east,\n        north = 6,\n        south,\n    }[10];\n    " == some true

-- `test_enum_default`
#guard outcome .parse []
    "\n    type test = enum i32 {\n        test = 1,\n        west,\n        east,\n        north = 6,\n        south,\n        def = default,\n    };\n    " == some true

-- `test_conditional`
#guard outcome .parse []
    "\n    type test = container {\n        len: u32,\n        is_present: bool,\n        data: u8[len] { is_present },\n    };\n    " == some true

-- `test_conditional_array`
#guard outcome .parse []
    "\n    type test = container {\n        is_present: bool,\n        data: u8[2][..] { is_present },\n    };\n    " == some true

-- `test_transform`
#guard outcome .parse []
    "\n    type test = container {\n        data: u8[..] -> gzip,\n    };\n    " == some true

-- `test_transform_args`
#guard outcome .parse []
    "\n    type test = container {\n        data: u8[..] -> base64(\"url\"),\n    };\n    " == some true

-- `test_type_args`
#guard outcome .parse []
    "\n    type test(len: u32) = container {\n        data: u8[len],\n    };\n    " == some true

-- `test_transform2`
#guard outcome .parse []
    "\n    type test = container {\n        data: u8[..] -> gzip -> encrypt,\n    };\n    " == some true

-- `test_transform_conditional`
#guard outcome .parse []
    "\n    type test = container {\n        len: u32,\n        is_present: bool,\n        data: u8[..] { is_present } -> gzip -> encrypt,\n    };\n    " == some true

-- `test_transform_conditional_transform`
#guard outcome .parse []
    "\n    type test = container {\n        len: u32,\n        is_present: bool,\n        is_encrypted: bool,\n        data: u8[6] { is_present } -> gzip -> encrypt {is_encrypted},\n    };\n    " == some true

-- `test_transform_conditional_transform_array`
#guard outcome .parse []
    "\n    type test = container {\n        len: u32,\n        is_present: bool,\n        is_encrypted: bool,\n        data: u8[6*len] { is_present } -> gzip -> encrypt {is_encrypted} -> base64,\n    };\n    " == some true

/-! ## tests/semantic/fail/const_decl.rs -/

-- `test_const_bad_implicit`
#guard outcome .loadAsg []
    "\n    const TEST: i32 = 5u32;\n    " == some false

-- `test_const_complex_type`
#guard outcome .loadAsg []
    "\n    const TEST: enum u32 { test = 0, } = 5u32;\n    " == some false

-- `test_const_redefine`
#guard outcome .loadAsg []
    "\n    const TEST: i32 = 5;\n    const TEST: i32 = 10;\n    " == some false

-- `test_const_invalid_type`
#guard outcome .loadAsg []
    "\n    const TEST: x = 5;\n    " == some false

-- `test_const_recursive`
#guard outcome .loadAsg []
    "\n    const TEST: u32 = TEST;\n    " == some false

-- `test_const_indirect_recursive`
#guard outcome .loadAsg []
    "\n    const TEST1: u32 = TEST2;\n    const TEST2: u32 = TEST1;\n    " == some false

/-! ## tests/semantic/fail/expr.rs -/

-- `test_oversize_int`
#guard outcome .loadAsg []
    "\n    const _: u8 = 257;\n    " == some false

-- `test_hex_int_oversize`
#guard outcome .loadAsg []
    "\n    const _: u8 = 0x5FF;\n    " == some false

-- `test_hex_int_neg_unsigned`
#guard outcome .loadAsg []
    "\n    const _: u32 = -0x5FF;\n    " == some false

-- `test_bad_enum_ref`
#guard outcome .loadAsg []
    "\n    const _: u32 = test.test;\n    " == some false

-- `test_bad_ident`
#guard outcome .loadAsg []
    "\n    const _: u32 = test;\n    " == some false

-- `test_array_index_type`
#guard outcome .loadAsg []
    "\n    const _: u32 = \"\"[1i32];\n    " == some false

-- `test_negate_bool`
#guard outcome .loadAsg []
    "\n    const _: u32 = -false;\n    " == some false

-- `test_not_int`
#guard outcome .loadAsg []
    "\n    const _: bool = !1;\n    " == some false

-- `test_signed_unsigned`
#guard outcome .loadAsg []
    "\n    const _: u32 = 1i32;\n    " == some false

-- `test_mul_bool`
#guard outcome .loadAsg []
    "\n    const _: u32 = true * 3;\n    " == some false

-- `test_mul_bool2`
#guard outcome .loadAsg []
    "\n    const _: bool = true * 3;\n    " == some false

-- `test_or_int`
#guard outcome .loadAsg []
    "\n    const _: bool = true || 1;\n    " == some false

-- `test_ternary`
#guard outcome .loadAsg []
    "\n    const _: u32 = true ? false ? 3i32 : 2u32 : false;\n    " == some false

/-! ## tests/semantic/fail/ffi.rs -/

-- `test_ffi_type_missing`
#guard outcome .loadAsg []
    "\n    import_ffi test_type2 as type;\n\n    " == some false

-- `test_ffi_type_redefined`
#guard outcome .loadAsg []
    "\n    type test_type = u32;\n    import_ffi test_type as type;\n\n    " == some false

-- `test_ffi_transform_missing`
#guard outcome .loadAsg []
    "\n    import_ffi test_transform2 as transform;\n    " == some false

-- `test_ffi_transform_redefined`
#guard outcome .loadAsg []
    "\n    import_ffi test_transform as transform;\n    import_ffi test_transform as transform;\n    " == some false

-- `test_ffi_transform_type`
#guard outcome .loadAsg []
    "\n    import_ffi test_transform as type;\n    " == some false

-- `test_ffi_type_transform`
#guard outcome .loadAsg []
    "\n    import_ffi test_type as transform;\n    " == some false

/-! ## tests/semantic/fail/import.rs -/

-- `test_import_missing`
#guard outcome .loadAsg modules_semantic_fail_import_rs
    "\n    import test_missing from \"test-import\";\n\n    type test_impl = test_missing;\n    " == some false

-- `test_import_file_missing`
#guard outcome .loadAsg modules_semantic_fail_import_rs
    "\n    import test_container from \"test-import_missing\";\n\n    type test_impl = test_container;\n    " == some false

-- `test_import_file_corrupt`
#guard outcome .loadAsg modules_semantic_fail_import_rs
    "\n    import test_container from \"malformed\";\n\n    type test_impl = test_container;\n    " == some false

/-! ## tests/semantic/fail/type_decl.rs -/

-- `test_type_redefine`
#guard outcome .loadAsg []
    "\n    type test = u32;\n    type test = u64;\n    " == some false

-- `test_type_redefine2`
#guard outcome .loadAsg []
    "\n    type test = u32;\n    type test = u32;\n    " == some false

-- `test_container_redefine`
#guard outcome .loadAsg []
    "\n    type test = container {\n        west: u32,\n        east: u32,\n        west: u32,\n    };\n    " == some false

-- `test_enum`
#guard outcome .loadAsg []
    "\n    type test = enum i32 {\n        test = 1u32,\n        west,\n        east,\n        north = 6,\n        south,\n    };\n    " == some false

-- `test_enum_default_early`
#guard outcome .loadAsg []
    "\n    type test = enum i32 {\n        test = 1,\n        def = default,\n        west,\n        east,\n        north = 6,\n        south,\n    };\n    " == some false

-- `test_conditional_bad`
#guard outcome .loadAsg []
    "\n    type test = container {\n        len: u32,\n        data: u8[len] { is_present },\n    };\n    " == some false

-- `test_conditional_inverted`
#guard outcome .loadAsg []
    "\n    type test = container {\n        len: u32,\n        data: u8[len] { is_present },\n        is_present: bool,\n    };\n    " == some false

/-! ## tests/semantic/pass/const_decl.rs -/

-- `test_const`
#guard outcome .loadAsg []
    "\n    const TEST: u32 = 5;\n    " == some true

-- `test_const_array`
#guard outcome .loadAsg []
    "\n    const TEST: u8[..] = \"test\";\n    " == some true

-- `test_enum_const`
#guard outcome .loadAsg []
    "\n    type color = enum i32 {\n        red = 1,\n        green,\n        blue,\n    };\n    const TEST: color = 5i32;\n    const TEST2: color = color::red;\n    " == some true

/-! ## tests/semantic/pass/expr.rs -/

-- `test_int`
#guard outcome .loadAsg []
    "\n    const _: u32 = 5;\n    " == some true

-- `test_up_int`
#guard outcome .loadAsg []
    "\n    const _: u32 = 5u16;\n    " == some true

-- `test_hex_int`
#guard outcome .loadAsg []
    "\n    const _: u32 = 0x5FF;\n    " == some true

-- `test_string`
#guard outcome .loadAsg []
    "\n    const _: u8[..] = \"test\";\n    " == some true

-- `test_string_escaped`
#guard outcome .loadAsg []
    "\n    const _: u8[..] = \"te\\\"st\";\n    " == some true

-- `test_ident`
#guard outcome .loadAsg []
    "\n    const test: u32 = 2;\n    const _: u32 = test;\n    " == some true

-- `test_paren`
#guard outcome .loadAsg []
    "\n    const _: u32 = (5);\n    " == some true

-- `test_array_index`
#guard outcome .loadAsg []
    "\n    const test: u8[..] = \"test\";\n    const _: u8 = test[1];\n    " == some true

-- `test_array_index_expr`
#guard outcome .loadAsg []
    "\n    const test: u8[..] = \"test\";\n    const _: u8 = test[1 + 1];\n    const _2: u8 = test[1] + test[2];\n    " == some true

-- `test_negate`
#guard outcome .loadAsg []
    "\n    const _: i32 = --1;\n    " == some true

-- `test_not`
#guard outcome .loadAsg []
    "\n    const _: bool = !!false;\n    " == some true

-- `test_bitnot`
#guard outcome .loadAsg []
    "\n    const _: u32 = ~~1;\n    " == some true

-- `test_bitnot_negate`
#guard outcome .loadAsg []
    "\n    const _: i32 = ~-~-1;\n    " == some true

-- `test_cast`
#guard outcome .loadAsg []
    "\n    const _: u32 = 1i64 :> i32 :> u16;\n    " == some true

-- `test_mul`
#guard outcome .loadAsg []
    "\n    const _: u32 = 1 * 2 / 3 % 4;\n    " == some true

-- `test_add`
#guard outcome .loadAsg []
    "\n    const _: u32 = 1 + 3 - 2;\n    " == some true

-- `test_shift`
#guard outcome .loadAsg []
    "\n    const _: u32 = 1 << 5 >> 1 >>> 1;\n    " == some true

-- `test_rel`
#guard outcome .loadAsg []
    "\n    const _: bool = 2i32 > 1 && 1 < 2i32 && 2i32 <= 2 && 2 >= 2i32;\n    " == some true

-- `test_eq`
#guard outcome .loadAsg []
    "\n    const _: bool = 5i32 == 2 != false;\n    " == some true

-- `test_bit_and`
#guard outcome .loadAsg []
    "\n    const _: u32 = 5 & 2u32;\n    " == some true

-- `test_bit_xor`
#guard outcome .loadAsg []
    "\n    const _: u32 = 5u32 ^ 2;\n    " == some true

-- `test_bit_or`
#guard outcome .loadAsg []
    "\n    const _: u32 = 5 | 8u32;\n    " == some true

-- `test_and`
#guard outcome .loadAsg []
    "\n    const _: bool = true && false;\n    " == some true

-- `test_or`
#guard outcome .loadAsg []
    "\n    const _: bool = true || false;\n    " == some true

-- `test_ternary`
#guard outcome .loadAsg []
    "\n    const _: u32 = true ? false ? 3 : 2 : 1;\n    " == some true

/-! ## tests/semantic/pass/ffi.rs -/

-- `test_ffi_type`
#guard outcome .loadAsg []
    "\n    import_ffi test_type as type;\n\n    type test = test_type[3];\n\n    type test_into = container {\n        int: u32,\n        stuff: u8[3] { (int :> test_type) > 3u32 },\n    };\n    " == some true

-- `test_ffi_transform`
#guard outcome .loadAsg []
    "\n    import_ffi test_transform as transform;\n\n    type x = u32 -> test_transform;\n    " == some true

/-! ## tests/semantic/pass/import.rs -/

-- `test_import`
#guard outcome .loadAsg modules_semantic_pass_import_rs
    "\n    import test_container from \"test-import\";\n\n    type test_impl = test_container;\n    " == some true

-- `test_import_ffi`
#guard outcome .loadAsg modules_semantic_pass_import_rs
    "\n    import test_container from \"test-import\";\n    import test_type, test_transform from \"test-import\";\n\n    type test_impl = container {\n        testy: test_container -> test_transform,\n        extra: test_type,\n    };\n    " == some true

-- `test_import_ffi_implicit`
#guard outcome .loadAsg modules_semantic_pass_import_rs
    "\n    import test_container2 as test_container from \"test-import\";\n\n    type test_impl = container {\n        testy: test_container,\n    };\n    " == some true

/-! ## tests/semantic/pass/type_decl.rs -/

-- `test_basic`
#guard outcome .loadAsg []
    "\n    type test = u32;\n    " == some true

-- `test_container`
#guard outcome .loadAsg []
    "\n    type test = container {\n        west: u32,\n    };\n    " == some true

-- `test_container_le`
#guard outcome .loadAsg []
    "\n    type test = container {\n        west: u32le,\n    };\n    " == some true

-- `test_nested_container`
#guard outcome .loadAsg []
    "\n    type test = container {\n        west: container {\n            east: u32,\n        },\n    };\n    " == some true

-- `test_nested_container_scoping`
#guard outcome .loadAsg []
    "\n    type test = container {\n        east: u8[..],\n        west: container {\n            east: u32,\n            west: u8[east]\n        },\n    };\n    " == some true

-- `test_array_length_expand`
#guard outcome .loadAsg []
    "\n    type testcontainer = container {\n        west: u32,\n    };\n    type test = testcontainer[..];\n    " == some true

-- `test_container_length`
#guard outcome .loadAsg []
    "\n    type test = container [5] {\n        west: u32,\n    };\n    " == some true

-- `test_container_array`
#guard outcome .loadAsg []
    "\n    type test = container [5] {\n        west: u8[4],\n    };\n    " == some true

-- `test_array_container_array`
#guard outcome .loadAsg []
    "\n    type testcontainer = container [5] {\n        west: u8[4],\n    };\n    type test = testcontainer[3];\n    " == some true

-- `test_array`
#guard outcome .loadAsg []
    "\n    type test = u8[4];\n    " == some true

-- `test_array_2d`
#guard outcome .loadAsg []
    "\n    type test = u8[4][3];\n    " == some true

-- `test_float`
#guard outcome .loadAsg []
    "\n    type test = f32;\n    " == some true

-- `test_bool`
#guard outcome .loadAsg []
    "\n    type test = bool;\n    " == some true

-- `test_bitfield`
#guard outcome .loadAsg []
    "\n    type test = bitfield i32 {\n        test = 1,\n        west,\n        east,\n        north,\n        south,\n    };\n    " == some true

-- `test_enum`
#guard outcome .loadAsg []
    "\n    type test = enum i32 {\n        test = 1,\n        west,\n        east,\n        north = 6,\n        south,\n    };\n    " == some true

-- `test_enum_array`
#guard outcome .loadAsg []
    "\n    type testenum = enum i32 {\n        test = 1,\n        west,\n        east,\n        north = 6,\n        south,\n    };\n    type test = testenum[10];\n    " == some true

-- `test_enum_default`
#guard outcome .loadAsg []
    "\n    type test = enum i32 {\n        test = 1,\n        west,\n        east,\n        north = 6,\n        south,\n        def = default,\n    };\n    " == some true

-- `test_conditional`
#guard outcome .loadAsg []
    "\n    type test = container {\n        len: u32,\n        is_present: bool,\n        data: u8[len] { is_present },\n    };\n    " == some true

-- `test_conditional_array`
#guard outcome .loadAsg []
    "\n    type test = container {\n        is_present: bool,\n        data: u8[2][..] { is_present },\n    };\n    " == some true

-- `test_transform`
#guard outcome .loadAsg []
    "\n    import_ffi test_transform as transform;\n\n    type test = container {\n        data: u8[..] -> test_transform,\n    };\n    " == some true

-- `test_transform2`
#guard outcome .loadAsg []
    "\n    import_ffi test_transform as transform;\n    type test = container {\n        data: u8[..] -> test_transform -> test_transform,\n    };\n    " == some true

-- `test_transform_conditional`
#guard outcome .loadAsg []
    "\n    import_ffi test_transform as transform;\n\n    type test = container {\n        len: u32,\n        is_present: bool,\n        data: u8[..] { is_present } -> test_transform -> test_transform,\n    };\n    " == some true

-- `test_transform_conditional_array`
#guard outcome .loadAsg []
    "\n    import_ffi test_transform as transform;\n\n    type test = container {\n        len: u32,\n        is_present: bool,\n        data: u8[6][..] { is_present } -> test_transform -> test_transform,\n    };\n    " == some true

-- `test_transform_conditional_transform`
#guard outcome .loadAsg []
    "\n    import_ffi test_transform as transform;\n\n    type test = container {\n        len: u32,\n        is_present: bool,\n        is_encrypted: bool,\n        data: u8[6] { is_present } -> test_transform -> test_transform {is_encrypted},\n    };\n    " == some true

-- `test_transform_conditional_transform_array`
#guard outcome .loadAsg []
    "\n    import_ffi test_transform as transform;\n\n    type test = container {\n        len: u32,\n        is_present: bool,\n        is_encrypted: bool,\n        data: u8[6*len] { is_present } -> test_transform -> test_transform {is_encrypted} -> test_transform,\n    };\n    " == some true

/-! ## tests/compiler/bitfield.rs -/

-- `test_compiler_bitfield`
#guard outcome .compile []
    "\n    type test = bitfield u32 {\n        v1 = 0x01,\n        v2,\n        v4 = 0x10,\n        v9 = 0x100,\n    };\n    " == some true

-- `test_compiler_bitfield_member`
#guard outcome .compile []
    "\n    type flags = bitfield u32 {\n        A = 0x1,\n        B,\n        C,\n    };\n    type test = container {\n        bitmask: flags,\n        a_value: u8 { bitmask.A },\n        b_value: u16 { bitmask.B },\n        c_value: u32 { bitmask.C },\n    };\n    " == some true

/-! ## tests/compiler/calculated.rs -/

-- `test_compiler_calculated`
#guard outcome .compile []
    "\n        type Payload = container {\n            child_count: u16 = len(children_windows) :> u16,\n            reserved: u8[1],\n            children_windows: u32[child_count],\n        };\n    " == some true

-- `test_compiler_calculated_blen`
#guard outcome .compile []
    "\n        type Payload = container {\n            length: u16 = blen(windows) :> u16,\n            windows: container [length] {\n                count: u16 = len(windows) :> u16,\n                windows: u32[count],\n            }\n        };\n    " == some true

/-! ## tests/compiler/container.rs -/

-- `test_compiler_container`
#guard outcome .compile []
    "\n    type test = container {\n        len: u32,\n        is_present: bool,\n        data: u8[len] {is_present},\n    };\n    " == some true

-- `test_compiler_container_ref`
#guard outcome .compile []
    "\n    type tester = container {\n        len: u32,\n        is_present: bool,\n        data: u8[len] {is_present},\n    };\n\n    type test = tester;\n    " == some true

-- `test_compiler_container_length`
#guard outcome .compile []
    "\n    type tester = container [190] {\n        len: u32,\n        is_present: bool,\n        data: u8[..] {is_present},\n    };\n\n    type test = tester;\n    " == some true

-- `test_compiler_container_fill`
#guard outcome .compile []
    "\n    type tester = container {\n        len: u32,\n        is_present: bool,\n        data: u8[..] {is_present},\n    };\n\n    type test = tester;\n    " == some true

-- `test_compiler_container_repeated`
#guard outcome .compile []
    "\n    type tester = container {\n        len: u32,\n        is_present: bool,\n        data: u8[len] {is_present},\n    };\n\n    type test = tester[3];\n    " == some true

-- `test_compiler_container_eof`
#guard outcome .compile []
    "\n    type tester = container {\n        len: u32,\n        is_present: bool,\n        data: u8[len] {is_present},\n    };\n\n    type test = tester[..];\n    " == some true

-- `test_compiler_type_args`
#guard outcome .compile []
    "\n    import_ffi test_transform as transform;\n    \n    type test(is_base64: bool) = container {\n        len: u32,\n        is_present: bool,\n        data: u8[len] {is_present} -> test_transform(2) {is_base64},\n    };\n\n    type tester = test(false);\n    " == some true

-- `test_compiler_container_pad`
#guard outcome .compile []
    "\n    type test = container {\n        x: u32,\n        .pad: 4,\n        y: u32\n    };\n    " == some true

-- `test_compiler_container_multi_nested`
#guard outcome .compile []
    "\n    type Interior = container {\n        value: u32,\n    };\n    type Test = container {\n        .pad: 4,\n        x: bool,\n        types: container {\n            .pad: 4,\n            length: u32 = blen(types) :> u32,\n            types: container [length] {\n                types: Interior,\n            },\n        } { x },\n    };\n    " == some true

/-! ## tests/compiler/enum_.rs -/

-- `test_compiler_enum`
#guard outcome .compile []
    "\n    type test = enum u32 {\n        v1 = 1,\n        v2,\n        v4 = 4,\n    };\n    " == some true

/-! ## tests/compiler/expr.rs -/

-- `test_compiler_expr`
#guard outcome .compile []
    "\n    type test = u32[1 + 2];\n\n    type tester = test;\n    " == some true

-- `test_compiler_expr_sum`
#guard outcome .compile []
    "\n    import_ffi sum as function;\n\n    type Test = container {\n        x: bool,\n        kt_levels: container {\n            num_levels_per_type: u8[32],\n            .pad: 4,\n            levels: u32[sum(num_levels_per_type)],\n        } { x },\n    };\n    " == some true

/-! ## tests/compiler/foreign_type.rs -/

-- `test_compiler_foreign_type`
#guard outcome .compile []
    "\n    import_ffi test_type as type;\n    \n    type tester = container {\n        len: u32,\n        is_present: bool,\n        data: test_type[len] {is_present},\n    };\n\n    type test = tester;\n    " == some true

/-! ## tests/compiler/integration/png.rs -/

-- `test_compiler_png`
#guard outcome .compile []
    "\n        type PngChunk = container {\n            length: u32,\n            chunk_type: u32,\n            data: u8[length],\n            crc: u32,\n        };\n        type Png = container {\n            header: u8[8],\n            chunks: PngChunk[..]\n        };\n    " == some true

/-! ## tests/compiler/integration/user_submission1.rs -/

-- `test_compiler_integration1`
#guard outcome .compile []
    "\n        import_ffi utf8 as type;\n\n        type Packet = container {\n            id : u8,\n            size: u32 = blen(data) :> u32,\n            size_crc: u8,\n            data: container [size] {\n                data: Item[..],\n            },\n            crc: u8,\n        };\n\n        type TypeId = enum u8 {\n            String = 0,\n            Integer,\n            Float,\n            Long,\n        };\n\n        type Item = container {\n            code: u16,\n            type_id: TypeId,\n            body: ItemBody(type_id),\n        };\n\n        type ItemBody(type_id: TypeId) = container +tagged_enum {\n            String: container {\n                len: u32 = len(string) :> u32,\n                string: utf8(len),\n            } { type_id == TypeId::String },\n            Integer: u32 { type_id == TypeId::Integer },\n            Float: u32 { type_id == TypeId::Float },\n            Long: u32 { type_id == TypeId::Long },\n        };\n    " == some true

/-! ## tests/compiler/primitive.rs -/

-- `test_compiler_primitive`
#guard outcome .compile []
    "\n    type ux32 = u32;\n    type ix32 = i32;\n    type fx32 = f32;\n    type bol = bool;\n    " == some true

-- `test_compiler_little_endian`
#guard outcome .compile []
    "\n        type test_le = container {\n            f1: u32le,\n            f2: u64le,\n        };\n        type test_be = container {\n            f1: u32,\n            f2: u64,\n        };\n    " == some true

-- `test_compiler_var_primitive`
#guard outcome .compile []
    "\n    import_ffi v32 as type;\n\n    type x32 = v32;\n    " == some true

/-! ## tests/compiler/tagged_enum.rs -/

-- `test_compiler_tagged_enum`
#guard outcome .compile []
    "\n        type Payload(t: u8) = container +tagged_enum {\n            Byte: i8 {t == 1},\n            Short: i16 {t == 2},\n        };\n        type Outer = container {\n            tag: u8,\n            payload: Payload(tag),\n        };\n    " == some true

-- `test_compiler_tagged_enum_default`
#guard outcome .compile []
    "\n        type Payload(t: u8) = container +tagged_enum {\n            Byte: i8 {t == 1},\n            Short: i16 {t == 2},\n            Other: u32,\n        };\n        type Outer = container {\n            tag: u8,\n            payload: Payload(tag),\n        };\n    " == some true

-- `test_compiler_tagged_enum_struct`
#guard outcome .compile []
    "\n        type Payload(t: u8) = container +tagged_enum {\n            Byte: container {\n                b1: u8,\n                b2: u8,\n            } {t == 1},\n            Short: i16 {t == 2},\n        };\n        type Outer = container {\n            tag: u8,\n            payload: Payload(tag),\n        };\n    " == some true

-- `test_compiler_tagged_nested_enum_struct`
#guard outcome .compile []
    "\n        type Payload(t: u8) = container +tagged_enum {\n            Byte: container {\n                b1: u8,\n                b2: u8,\n                b3: container {\n                    b4: u8,\n                }\n            } {t == 1},\n            Short: i16 {t == 2},\n        };\n        type Outer = container {\n            tag: u8,\n            payload: Payload(tag),\n        };\n    " == some true

/-! ## tests/compiler/transform.rs -/

-- `test_compiler_transform`
#guard outcome .compile []
    "\n    import_ffi test_transform as transform;\n    \n    type tester = container {\n        len: u32,\n        is_present: bool,\n        data: u8[len] {is_present} -> test_transform,\n    };\n\n    type test = tester;\n    " == some true

-- `test_compiler_transform_conditional`
#guard outcome .compile []
    "\n    import_ffi test_transform as transform;\n    \n    type tester = container {\n        len: u32,\n        is_present: bool,\n        is_base64: bool,\n        data: u8[len] {is_present} -> test_transform {is_base64},\n    };\n\n    type test = tester;\n    " == some true

-- `test_compiler_transform_conditional_arg`
#guard outcome .compile []
    "\n    import_ffi test_transform as transform;\n    \n    type tester = container {\n        len: u32,\n        is_present: bool,\n        is_base64: bool,\n        data: u8[len] {is_present} -> test_transform(2) {is_base64},\n    };\n\n    type test = tester;\n    " == some true

end Verif.Conformance
