import Verif.Ast
/-!
# The grammar: specification for C31-C33

A context-free grammar of the language, stated without reference to the parser: `Gr sym toks v` says
that the tokens `toks` spell `v` as a phrase of the kind `sym`. Binary operators are left associative;
`prec` is their precedence.
-/
namespace Verif.Props

open Ast

/-- Spec: precedence of the binary operators, loosest first. 0 is the ternary operator, 11 also has
casts, 12 the prefix operators, 13 the postfix operators, 14 the atoms. -/
def prec : BinOp → Nat
  | .or => 1
  | .and => 2
  | .bitOr => 3
  | .bitXor => 4
  | .bitAnd => 5
  | .eq | .ne => 6
  | .lt | .gt | .lte | .gte => 7
  | .shl | .shr | .shrSigned => 8
  | .add | .sub => 9
  | .mul | .div | .mod => 10
  | .elvis => 11

/-- Spec: the spelling of the binary operators. -/
def opTok : BinOp → Token
  | .or => .or | .and => .and | .bitOr => .bitOr | .bitXor => .bitXor | .bitAnd => .bitAnd
  | .eq => .eq | .ne => .ne | .lt => .lt | .gt => .gt | .lte => .ltEq | .gte => .gtEq
  | .shl => .shl | .shr => .shr | .shrSigned => .shrSigned | .add => .plus | .sub => .minus
  | .mul => .mul | .div => .div | .mod => .mod | .elvis => .elvis

/-- Spec: the spelling of the prefix operators. -/
def unTok : UnOp → Token
  | .negate => .minus | .not => .not | .bitNot => .bitNot

/-- Spec: the spelling of the scalar types. One byte has no byte order: `little` is not spelt for
it. -/
def scalarTok : EScalar → Option Token
  | ⟨.u8, .big⟩ => some .u8 | ⟨.u16, .big⟩ => some .u16 | ⟨.u32, .big⟩ => some .u32
  | ⟨.u64, .big⟩ => some .u64 | ⟨.u128, .big⟩ => some .u128
  | ⟨.i8, .big⟩ => some .i8 | ⟨.i16, .big⟩ => some .i16 | ⟨.i32, .big⟩ => some .i32
  | ⟨.i64, .big⟩ => some .i64 | ⟨.i128, .big⟩ => some .i128
  | ⟨.u8, .little⟩ => none | ⟨.u16, .little⟩ => some .u16le | ⟨.u32, .little⟩ => some .u32le
  | ⟨.u64, .little⟩ => some .u64le | ⟨.u128, .little⟩ => some .u128le
  | ⟨.i8, .little⟩ => none | ⟨.i16, .little⟩ => some .i16le | ⟨.i32, .little⟩ => some .i32le
  | ⟨.i64, .little⟩ => some .i64le | ⟨.i128, .little⟩ => some .i128le

/-- Spec: what follows `import_ffi name as`. -/
def ffiTok : FfiKind → Token
  | .transform => .transform | .type => .type | .function => .function

/-- Spec: flags `+a +b`. -/
def flagToks (fs : List String) : List Token := fs.flatMap fun s => [.plus, .ident s]

/-- Spec: the kinds of phrases. `lvl k` is an expression with operators of precedence at least `k`. -/
inductive Sym
  | lvl (k : Nat)
  | args | optArgs
  | bracket | cond | dflt
  | type | len
  | item | items
  | enumItem (first : Bool) | enumItems (first : Bool)
  | bitItem (first : Bool) | bitItems (first : Bool)
  | field | transform | transforms
  | param | paramList | params
  | importItem | importItems
  | body | decl | program

/-- Spec: what a phrase of each kind spells. -/
@[reducible] def Sym.Val : Sym → Type
  | .lvl _ => Expression
  | .args | .optArgs => List Expression
  | .bracket | .cond | .dflt => Option Expression
  | .type => Ty
  | .len => Bool × Option Expression
  | .item => Item
  | .items => List Item
  | .enumItem _ => EnumItem
  | .enumItems _ => List EnumItem
  | .bitItem _ => BitItem
  | .bitItems _ => List BitItem
  | .field => Field
  | .transform => Transform
  | .transforms => List Transform
  | .param => TypeArg
  | .paramList | .params => List TypeArg
  | .importItem => ImportItem
  | .importItems => List ImportItem
  | .body | .decl => Ast.Decl
  | .program => List Ast.Decl

/-- Spec: the grammar. -/
inductive Gr : (s : Sym) → List Token → s.Val → Prop
  -- expressions
  | up {k u e} : Gr (.lvl (k + 1)) u e → Gr (.lvl k) u e
  | ternary {u v w c a b} : Gr (.lvl 1) u c → Gr (.lvl 0) v a → Gr (.lvl 1) w b →
      Gr (.lvl 0) (u ++ .question :: (v ++ .colon :: w)) (.ternary c a b)
  | binary {op u v a b} : Gr (.lvl (prec op)) u a → Gr (.lvl (prec op + 1)) v b →
      Gr (.lvl (prec op)) (u ++ opTok op :: v) (.binary op a b)
  | cast {u v e t} : Gr (.lvl 11) u e → Gr .type v t → Gr (.lvl 11) (u ++ .cast :: v) (.cast e t)
  | unary {op u e} : Gr (.lvl 12) u e → Gr (.lvl 12) (unTok op :: u) (.unary op e)
  | index {u v a i} : Gr (.lvl 13) u a → Gr (.lvl 0) v i →
      Gr (.lvl 13) (u ++ .leftSquare :: (v ++ [.rightSquare])) (.index a i)
  | member {u a m} : Gr (.lvl 13) u a → Gr (.lvl 13) (u ++ [.dot, .ident m]) (.member a m)
  | int {s} : Gr (.lvl 14) [.int s] (.int s none)
  | intTyped {s k t} : scalarTok k = some t → Gr (.lvl 14) [.int s, t] (.int s (some k.scalar))
  | str {s} : Gr (.lvl 14) [.string s] (.str s)
  | true : Gr (.lvl 14) [.true] (.bool true)
  | false : Gr (.lvl 14) [.false] (.bool false)
  | ref {n} : Gr (.lvl 14) [.ident n] (.ref n)
  | enumAccess {n m} : Gr (.lvl 14) [.ident n, .doubleColon, .ident m] (.enumAccess n m)
  | call {n u as} : Gr .args u as →
      Gr (.lvl 14) (.ident n :: .leftParen :: (u ++ [.rightParen])) (.call n as)
  | paren {u e} : Gr (.lvl 0) u e → Gr (.lvl 14) (.leftParen :: (u ++ [.rightParen])) e
  -- arguments: separated by commas, a last comma is allowed
  | argsNil : Gr .args [] []
  | argsLast {u e} : Gr (.lvl 0) u e → Gr .args u [e]
  | argsCons {u v e es} : Gr (.lvl 0) u e → Gr .args v es → Gr .args (u ++ .comma :: v) (e :: es)
  | noArgs : Gr .optArgs [] []
  | someArgs {u es} : Gr .args u es → Gr .optArgs (.leftParen :: (u ++ [.rightParen])) es
  -- optional clauses
  | noBracket : Gr .bracket [] none
  | someBracket {u e} : Gr (.lvl 0) u e → Gr .bracket (.leftSquare :: (u ++ [.rightSquare])) (some e)
  | noCond : Gr .cond [] none
  | someCond {u e} : Gr (.lvl 0) u e → Gr .cond (.leftCurly :: (u ++ [.rightCurly])) (some e)
  | noDflt : Gr .dflt [] none
  | someDflt {u e} : Gr (.lvl 0) u e → Gr .dflt (.question :: u) (some e)
  -- types
  | scalar {k t} : scalarTok k = some t → Gr .type [t] (.scalar k)
  | f32 : Gr .type [.f32] .f32
  | f64 : Gr .type [.f64] .f64
  | bool : Gr .type [.bool] .bool
  | typeRef {n u as} : Gr .optArgs u as → Gr .type (.ident n :: u) (.ref n as)
  | array {u v t l} : Gr .type u t → Gr .len v l →
      Gr .type (u ++ .leftSquare :: (v ++ [.rightSquare])) (.array t l.1 l.2)
  | lenDots : Gr .len [.dotDot] (true, none)
  | lenDotsExpr {u e} : Gr (.lvl 0) u e → Gr .len (.dotDot :: u) (true, some e)
  | lenExpr {u e} : Gr (.lvl 0) u e → Gr .len u (false, some e)
  | container {u v l fs is} : Gr .bracket u l → Gr .items v is →
      Gr .type (.container :: (u ++ (flagToks fs ++ .leftCurly :: (v ++ [.rightCurly])))) (.container l fs is)
  | itemField {n u f} : Gr .field u f → Gr .item (.ident n :: .colon :: u) (.field n f)
  | itemPad {u e} : Gr (.lvl 0) u e → Gr .item (.dot :: .ident "pad" :: .colon :: u) (.pad e)
  | itemsNil : Gr .items [] []
  | itemsLast {u i} : Gr .item u i → Gr .items u [i]
  | itemsCons {u v i is} : Gr .item u i → Gr .items v is → Gr .items (u ++ .comma :: v) (i :: is)
  | enum {k t u is} : scalarTok k = some t → Gr (.enumItems true) u is →
      Gr .type (.enum :: t :: .leftCurly :: (u ++ [.rightCurly])) (.enum k is)
  | enumImplicit {n} : Gr (.enumItem false) [.ident n] (.mk n .none)
  | enumDefault {b n} : Gr (.enumItem b) [.ident n, .equal, .default] (.mk n .default)
  | enumExpr {b n u e} : Gr (.lvl 0) u e → Gr (.enumItem b) (.ident n :: .equal :: u) (.mk n (.expr e))
  | enumLast {b u i} : Gr (.enumItem b) u i → Gr (.enumItems b) u [i]
  | enumTrail {b u i} : Gr (.enumItem b) u i → Gr (.enumItems b) (u ++ [.comma]) [i]
  | enumCons {b u v i is} : Gr (.enumItem b) u i → Gr (.enumItems false) v is →
      Gr (.enumItems b) (u ++ .comma :: v) (i :: is)
  | bitfield {k t u is} : scalarTok k = some t → Gr (.bitItems true) u is →
      Gr .type (.bitfield :: t :: .leftCurly :: (u ++ [.rightCurly])) (.bitfield k is)
  | bitImplicit {n} : Gr (.bitItem false) [.ident n] (.mk n none)
  | bitExpr {b n u e} : Gr (.lvl 0) u e → Gr (.bitItem b) (.ident n :: .equal :: u) (.mk n (some e))
  | bitLast {b u i} : Gr (.bitItem b) u i → Gr (.bitItems b) u [i]
  | bitTrail {b u i} : Gr (.bitItem b) u i → Gr (.bitItems b) (u ++ [.comma]) [i]
  | bitCons {b u v i is} : Gr (.bitItem b) u i → Gr (.bitItems false) v is →
      Gr (.bitItems b) (u ++ .comma :: v) (i :: is)
  -- fields: a calculated field has no flags (`= a +b` is a sum)
  | field {u w x t fs c ts} : Gr .type u t → Gr .cond w c → Gr .transforms x ts →
      Gr .field (u ++ (flagToks fs ++ (w ++ x))) (.mk t fs none c ts)
  | fieldCalc {u v w x t e c ts} : Gr .type u t → Gr (.lvl 0) v e → Gr .cond w c → Gr .transforms x ts →
      Gr .field (u ++ .equal :: (v ++ (w ++ x))) (.mk t [] (some e) c ts)
  | transform {n u v as c} : Gr .optArgs u as → Gr .cond v c →
      Gr .transform (.arrow :: .ident n :: (u ++ v)) (.mk n as c)
  | transNil : Gr .transforms [] []
  | transCons {u v t ts} : Gr .transform u t → Gr .transforms v ts → Gr .transforms (u ++ v) (t :: ts)
  -- declarations
  | param {n u v t d} : Gr .type u t → Gr .dflt v d → Gr .param (.ident n :: .colon :: (u ++ v)) ⟨n, t, d⟩
  | paramNil : Gr .paramList [] []
  | paramLast {u p} : Gr .param u p → Gr .paramList u [p]
  | paramCons {u v p ps} : Gr .param u p → Gr .paramList v ps → Gr .paramList (u ++ .comma :: v) (p :: ps)
  | noParams : Gr .params [] []
  | someParams {u ps} : Gr .paramList u ps → Gr .params (.leftParen :: (u ++ [.rightParen])) ps
  | typeDecl {n u v ps f} : Gr .params u ps → Gr .field v f →
      Gr .body (.type :: .ident n :: (u ++ .equal :: v)) (.type n ps f)
  | importPlain {n} : Gr .importItem [.ident n] ⟨n, none⟩
  | importAlias {n m} : Gr .importItem [.ident n, .as_, .ident m] ⟨n, some m⟩
  | importLast {u i} : Gr .importItem u i → Gr .importItems u [i]
  | importTrail {u i} : Gr .importItem u i → Gr .importItems (u ++ [.comma]) [i]
  | importCons {u v i is} : Gr .importItem u i → Gr .importItems v is →
      Gr .importItems (u ++ .comma :: v) (i :: is)
  | importDecl {u is src} : Gr .importItems u is →
      Gr .body (.import_ :: (u ++ [.from_, .string src])) (.import_ is src)
  | ffiDecl {n k} : Gr .body [.importFfi, .ident n, .as_, ffiTok k] (.ffi n k)
  | constDecl {n u v t e} : Gr .type u t → Gr (.lvl 0) v e →
      Gr .body (.const :: .ident n :: .colon :: (u ++ .equal :: v)) (.const n t e)
  | decl {u d} : Gr .body u d → Gr .decl (u ++ [.semicolon]) d
  | programNil : Gr .program [] []
  | programCons {u v d ds} : Gr .decl u d → Gr .program v ds → Gr .program (u ++ v) (d :: ds)

end Verif.Props
