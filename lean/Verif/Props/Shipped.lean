import Verif.Parser
import Verif.Sem.PreludeEnv
/-!
# The example specification that comes with the project
-/
namespace Verif.Props
open Verif Sem

/-- `examples/nbtview/spec/nbt.pspec` with something put in at the end of its line 30; with nothing, it is the file. -/
def nbtSource (comma : String) : String :=
  "import_ffi utf8 as type;\n\ntype Tag = enum u8 {\n    End = 0,\n    Byte,\n    Short,\n    Int,\n    Long,\n    Float,\n    Double,\n    ByteArray,\n    String,\n    List,\n    Compound,\n    IntArray,\n    LongArray,\n};\n\ntype NBTString = container {\n    len: u16 = len(value) :> u16,\n    value: utf8(len),\n};\n\ntype IntArray = container {\n    len: i32 = len(value) :> i32,\n    value: i32[len],\n};\n\ntype LongArray = container {\n    len: i32 = len(value) :> i32" ++ comma ++
  "\n    value: i64[len],\n};\n\ntype Payload(t: Tag) = container +tagged_enum {\n    Byte: i8 {t == Tag::Byte},\n    Short: i16 {t == Tag::Short},\n    Int: i32 {t == Tag::Int},\n    Long: i64 {t == Tag::Long},\n    Float: f32 {t == Tag::Float},\n    Double: f64 {t == Tag::Double},\n    String: NBTString {t == Tag::String},\n    List: List {t == Tag::List},\n    Compound: Compound {t == Tag::Compound},\n    IntArray: IntArray {t == Tag::IntArray},\n    LongArray: LongArray {t == Tag::LongArray},\n};\n\ntype CompoundItem = container {\n    type_id: Tag,\n    name_len: u16 = len(name) :> u16,\n    name: utf8(name_len),\n    payload: Payload(type_id),\n};\n\ntype Compound = container {\n    items: CompoundItem[..\"\\0\"]\n};\n\ntype List = container {\n    type_id: Tag,\n    length: i32 = len(items) :> length,\n    items: Payload(type_id)[length],\n};"

/-- What is wrong with a source, if it does not parse. -/
def parseError (src : String) : Option PErr :=
  match parse (ascii src) with
  | .error e => some e
  | .ok _ => none

/-- What is wrong with a source that parses. -/
def convertError (src : String) : Option SFault :=
  match parse (ascii src) with
  | .error _ => none
  | .ok ast =>
    match convert (preludeEnv []) 0 ast with
    | .error e => some e
    | .ok _ => none

/-- The specification that comes with the project as an example is rejected: there is a comma missing
after the first field of `LongArray`. -/
theorem shipped_example_finding :
    parseError "type LongArray = container {
    len: i32 = len(value) :> i32
    value: i64[len],
};" = some (.unexpected (.ident "value")) := by
  decide +kernel

#guard parseError (nbtSource "") == some (.unexpected (.ident "value"))

/-- With that comma it is rejected because of its signed array lengths. -/
theorem shipped_example_length_finding :
    convertError "type IntArray = container {
    len: i32 = len(value) :> i32,
    value: i32[len],
};" = some (.asg .unexpectedType) := by
  decide +kernel

#guard parseError (nbtSource ",") == none
#guard convertError (nbtSource ",") == some (.asg .unexpectedType)

/-- And `length` in `len(items) :> length` is no type. -/
theorem shipped_example_type_finding :
    convertError "type List = container {
    length: u32 = len(items) :> length,
    items: i32[length],
};" = some (.asg (.unresolvedType "length")) := by
  decide +kernel

end Verif.Props
