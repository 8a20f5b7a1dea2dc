import Verif.Expr
import Verif.Tokenizer
/-!
# Syntax trees

Models `/repo/protospec-build/src/ast/`. Simplification: spans are dropped everywhere, so an `Ident`
is its name, a `Str` its bytes, and `Type` is its `RawType`.
-/
namespace Verif.Ast

mutual
/-- `ast/expression/mod.rs` 39-53 and the structs of `ast/expression/`. -/
inductive Expression
  | binary (op : BinOp) (left right : Expression)
  | unary (op : UnOp) (inner : Expression)
  | cast (inner : Expression) (type : Ty)
  | index (array index : Expression)
  | enumAccess (name variant : String)
  | int (value : String) (type : Option Scalar)
  | ref (name : String)
  | str (content : Text)
  | ternary (condition ifTrue ifFalse : Expression)
  | bool (value : Bool)
  | call (function : String) (arguments : List Expression)
  | member (target : Expression) (member : String)
/-- `ast/types/mod.rs` 28-39 (`RawType`) with `ast/types/{container,enum_,bitfield,array,type_ref}.rs`. -/
inductive Ty
  | container (length : Option Expression) (flags : List String) (items : List Item)
  | enum (rep : EScalar) (items : List EnumItem)
  | bitfield (rep : EScalar) (items : List BitItem)
  | scalar (s : EScalar)
  | array (interior : Ty) (expandable : Bool) (length : Option Expression)
  | f32 | f64 | bool
  | ref (name : String) (arguments : List Expression)
/-- `ast/types/enum_.rs` 3-8. -/
inductive EnumVal
  | expr (e : Expression)
  | default
  | none
/-- `ast/types/enum_.rs` 13: an element of `items`. -/
inductive EnumItem
  | mk (name : String) (value : EnumVal)
/-- `ast/types/bitfield.rs` 6: an element of `items`. -/
inductive BitItem
  | mk (name : String) (value : Option Expression)
/-- `ast/types/container.rs` 3-7. -/
inductive Item
  | field (name : String) (f : Field)
  | pad (e : Expression)
/-- `ast/field.rs` 3-11. -/
inductive Field
  | mk (type : Ty) (flags : List String) (calculated condition : Option Expression)
      (transforms : List Transform)
/-- `ast/transform.rs` 3-9. -/
inductive Transform
  | mk (name : String) (arguments : List Expression) (conditional : Option Expression)
end

/-- `ast/declaration/type_declaration.rs` 3-9. -/
structure TypeArg where
  name : String
  type : Ty
  default : Option Expression

/-- `ast/declaration/import_declaration.rs` 3-8. -/
structure ImportItem where
  name : String
  alias : Option String
  deriving DecidableEq, Repr

/-- `ast/declaration/ffi_declaration.rs` 11-16. -/
inductive FfiKind
  | transform | type | function
  deriving DecidableEq, Repr

/-- `ast/declaration/mod.rs` 15-21 and the structs of `ast/declaration/`. -/
inductive Decl
  | type (name : String) (arguments : List TypeArg) (value : Field)
  | import_ (items : List ImportItem) (from_ : Text)
  | ffi (name : String) (kind : FfiKind)
  | const (name : String) (type : Ty) (value : Expression)

/-- `ast/program.rs`. -/
abbrev Program := List Decl

end Verif.Ast
