import Verif.Ast
/-!
# The parser

Models `/repo/protospec-build/src/parser/`. The token iterator (`parser/token_iter.rs`) is the list of
the tokens that are left; spans are dropped, so errors keep the offending token but not its position or
the text of what was expected. Every function that takes part in the recursion is one case of
`step`, with the other functions given as `rec`; a `while` or `loop` is a function of its own that
carries the local variables. `P n` allows a call depth of `n`; `parse` gives enough depth for every
input (`Props.parse_terminates`).
-/
namespace Verif

open Ast

/-- `parser/error.rs` 6-25; `diverge`: no end of the recursion (shown impossible). -/
inductive PErr
  | token (e : TokErr)
  | eof
  | unexpected (t : Token)
  | emptyLength
  | enumMissingRep
  | bitfieldMissingRep
  | unknownDirective (name : String)
  | panic
  | diverge
  deriving DecidableEq

abbrev PRes := Except PErr

abbrev Toks := List Token

/-! ## Token iterator -/

/-- token_iter.rs 46-53 (`eat`): the rest if the first token is the given one. -/
def eatTok (w : Token) : Toks → Option Toks
  | t :: ts => if t = w then some ts else none
  | [] => none

/-- token_iter.rs 64-80 (`expect`). -/
def expectTok (w : Token) : Toks → PRes Toks
  | t :: ts => if t = w then .ok ts else .error (.unexpected t)
  | [] => .error .eof

/-- token_iter.rs 28-33 (`peek_token`). -/
def peekTok (w : Token) : Toks → PRes Bool
  | t :: _ => .ok (t == w)
  | [] => .error .eof

/-- token_iter.rs 104-129 (`expect_ident`). -/
def expectIdent : Toks → PRes (String × Toks)
  | .ident s :: ts => .ok (s, ts)
  | t :: _ => .error (.unexpected t)
  | [] => .error .eof

/-- token_iter.rs 131-156 (`expect_string`). -/
def expectString : Toks → PRes (Text × Toks)
  | .string s :: ts => .ok (s, ts)
  | t :: _ => .error (.unexpected t)
  | [] => .error .eof

/-- token_iter.rs 55-62 (`eat_any`): the first token, if it is one of the given ones. -/
def eatAny (ws : List Token) : Toks → Option (Token × Toks)
  | t :: ts => if t ∈ ws then some (t, ts) else none
  | [] => none

/-! ## Functions that call no other parser -/

/-- types/scalar.rs 26-60: the scalar types by token. -/
def scalarOf : Token → Option EScalar
  | .i8 => some ⟨.i8, .big⟩ | .i16 => some ⟨.i16, .big⟩ | .i32 => some ⟨.i32, .big⟩
  | .i64 => some ⟨.i64, .big⟩ | .i128 => some ⟨.i128, .big⟩
  | .u8 => some ⟨.u8, .big⟩ | .u16 => some ⟨.u16, .big⟩ | .u32 => some ⟨.u32, .big⟩
  | .u64 => some ⟨.u64, .big⟩ | .u128 => some ⟨.u128, .big⟩
  | .i16le => some ⟨.i16, .little⟩ | .i32le => some ⟨.i32, .little⟩
  | .i64le => some ⟨.i64, .little⟩ | .i128le => some ⟨.i128, .little⟩
  | .u16le => some ⟨.u16, .little⟩ | .u32le => some ⟨.u32, .little⟩
  | .u64le => some ⟨.u64, .little⟩ | .u128le => some ⟨.u128, .little⟩
  | _ => none

/-- types/scalar.rs 3-61 (`parse_scalar_type`): takes a scalar type if there is one. -/
def parseScalar : Toks → Option EScalar × Toks
  | t :: ts =>
    match scalarOf t with
    | some s => (some s, ts)
    | none => (none, t :: ts)
  | [] => (none, [])

/-- The tokens tried by `eat` or `eat_any` in expression/{or,and,bit_or,bit_xor,bit_and,eq,rel,shift,
add,multiply}.rs, which are the levels 1 to 10 here. -/
def levelToks : Nat → List Token
  | 1 => [.or]
  | 2 => [.and]
  | 3 => [.bitOr]
  | 4 => [.bitXor]
  | 5 => [.bitAnd]
  | 6 => [.eq, .ne]
  | 7 => [.lt, .ltEq, .gt, .gtEq]
  | 8 => [.shl, .shr, .shrSigned]
  | 9 => [.plus, .minus]
  | 10 => [.mul, .div, .mod]
  | _ => []

/-- The `match op` of the same files; no result is `unimplemented!()`. -/
def levelOp : Nat → Token → Option BinOp
  | 1, .or => some .or
  | 2, .and => some .and
  | 3, .bitOr => some .bitOr
  | 4, .bitXor => some .bitXor
  | 5, .bitAnd => some .bitAnd
  | 6, .eq => some .eq
  | 6, .ne => some .ne
  | 7, .lt => some .lt
  | 7, .ltEq => some .lte
  | 7, .gt => some .gt
  | 7, .gtEq => some .gte
  | 8, .shl => some .shl
  | 8, .shr => some .shr
  | 8, .shrSigned => some .shrSigned
  | 9, .plus => some .add
  | 9, .minus => some .sub
  | 10, .mul => some .mul
  | 10, .div => some .div
  | 10, .mod => some .mod
  | _, _ => none

/-- expression/unary.rs 5-7: the leading operators. -/
def unaryToks : Toks → List Token × Toks
  | t :: ts =>
    if t ∈ [Token.not, .minus, .bitNot] then
      let (ops, r) := unaryToks ts
      (t :: ops, r)
    else ([], t :: ts)
  | [] => ([], [])

/-- expression/unary.rs 12-17. -/
def unaryOp : Token → PRes UnOp
  | .not => .ok .not
  | .minus => .ok .negate
  | .bitNot => .ok .bitNot
  | _ => .error .panic

/-- expression/unary.rs 9-20: the last operator is applied first. -/
def applyUnary : List Token → Expression → PRes Expression
  | [], e => .ok e
  | t :: ts, e => do
    let inner ← applyUnary ts e
    let op ← unaryOp t
    .ok (.unary op inner)

/-- parser/mod.rs 49-55 (`parse_flags`). -/
def parseFlags : Toks → PRes (List String × Toks)
  | .plus :: .ident s :: ts => do
    let (fs, ts) ← parseFlags ts
    .ok (s :: fs, ts)
  | .plus :: t :: _ => .error (.unexpected t)
  | .plus :: [] => .error .eof
  | ts => .ok ([], ts)

/-! ## The recursive functions -/

/-- The functions that call each other. A name ending in `Loop` is the loop of the function of that
name, with its local variables. -/
inductive NT
  | expr
  | lvl (l : Nat)
  | lvlLoop (l : Nat) (expr : Expression)
  | cast
  | castLoop (expr : Expression)
  | unary
  | index
  | indexLoop (expr : Expression)
  | primary
  | args
  | argsLoop (acc : List Expression)
  | type
  | typeLoop (out : Ty)
  | len
  | container
  | containerLoop (acc : List Item)
  | enum
  | enumLoop (acc : List EnumItem)
  | bitfield
  | bitLoop (acc : List BitItem)
  | field
  | cond
  | calcd
  | transLoop (acc : List Transform)
  | typeDecl
  | typeArgsLoop (acc : List TypeArg)
  | importDecl
  | importLoop (acc : List ImportItem)
  | constDecl
  | decl
  | programLoop (acc : List Decl)

/-- What each function returns. -/
@[reducible] def Out : NT → Type
  | .expr | .lvl _ | .lvlLoop _ _ | .cast | .castLoop _ | .unary | .index | .indexLoop _ | .primary => Expression
  | .args | .argsLoop _ => List Expression
  | .type | .typeLoop _ | .container | .enum | .bitfield => Ty
  | .len => Bool × Option Expression
  | .containerLoop _ => List Item
  | .enumLoop _ => List EnumItem
  | .bitLoop _ => List BitItem
  | .field => Field
  | .cond | .calcd => Option Expression
  | .transLoop _ => List Transform
  | .typeArgsLoop _ => List TypeArg
  | .importLoop _ => List ImportItem
  | .typeDecl | .importDecl | .constDecl | .decl => Decl
  | .programLoop _ => List Decl

/-- A result of the function `g`: its value and the tokens left. -/
abbrev POut (g : NT) := PRes (Out g × Toks)

abbrev Rec := (g : NT) → Toks → POut g

/-- expression/mod.rs 45-60 (`parse_expression`). -/
def parseExpr (rec : Rec) (t : Toks) : POut .expr := do
  let (e, t) ← rec (.lvl 1) t
  match eatTok .question t with
  | some t => do
    let (a, t) ← rec .expr t
    let t ← expectTok .colon t
    let (b, t) ← rec (.lvl 1) t
    .ok (.ternary e a b, t)
  | none => .ok (e, t)

/-- The function called for the operands at a level: expression/or.rs 4 and 6, ... , multiply.rs 4
and 8. -/
def parseOperand (rec : Rec) (l : Nat) (t : Toks) : PRes (Expression × Toks) :=
  if l < 10 then rec (.lvl (l + 1)) t else rec .cast t

/-- expression/or.rs 3-4 and the same in the other nine files. -/
def parseLvl (rec : Rec) (l : Nat) (t : Toks) : PRes (Expression × Toks) := do
  let (e, t) ← parseOperand rec l t
  rec (.lvlLoop l e) t

/-- expression/or.rs 5-14 and the same in the other nine files. -/
def parseLvlLoop (rec : Rec) (l : Nat) (e : Expression) (t : Toks) : PRes (Expression × Toks) :=
  match eatAny (levelToks l) t with
  | some (op, t) => do
    let (right, t) ← parseOperand rec l t
    match levelOp l op with
    | some op => rec (.lvlLoop l (.binary op e right)) t
    | none => .error .panic
  | none => .ok (e, t)

/-- expression/cast.rs 3-4. -/
def parseCast (rec : Rec) (t : Toks) : PRes (Expression × Toks) := do
  let (e, t) ← rec .unary t
  rec (.castLoop e) t

/-- expression/cast.rs 5-27. -/
def parseCastLoop (rec : Rec) (e : Expression) (t : Toks) : PRes (Expression × Toks) :=
  match eatAny [.cast, .elvis] t with
  | some (.cast, t) => do
    let (right, t) ← rec .type t
    rec (.castLoop (.cast e right)) t
  | some (.elvis, t) => do
    let (right, t) ← rec .unary t
    rec (.castLoop (.binary .elvis e right)) t
  | some _ => .error .panic
  | none => .ok (e, t)

/-- expression/unary.rs 3-22. -/
def parseUnary (rec : Rec) (t : Toks) : PRes (Expression × Toks) := do
  let (inner, t') ← rec .index (unaryToks t).2
  let e ← applyUnary (unaryToks t).1 inner
  .ok (e, t')

/-- expression/array_index.rs 3-4 and 28-29 (`while t.eat(Token::LeftSquare).is_some() {}` skips
brackets). -/
def parseIndex (rec : Rec) (t : Toks) : PRes (Expression × Toks) := do
  let (e, t) ← rec .primary t
  let (e, t) ← rec (.indexLoop e) t
  .ok (e, t.dropWhile (· == .leftSquare))

/-- expression/array_index.rs 5-26. -/
def parseIndexLoop (rec : Rec) (e : Expression) (t : Toks) : PRes (Expression × Toks) :=
  match eatAny [.leftSquare, .dot] t with
  | some (.leftSquare, t) => do
    let (right, t) ← rec .expr t
    let t ← expectTok .rightSquare t
    rec (.indexLoop (.index e right)) t
  | some (.dot, t) => do
    let (m, t) ← expectIdent t
    rec (.indexLoop (.member e m)) t
  | some _ => .error .panic
  | none => .ok (e, t)

/-- expression/primary.rs 3-49. -/
def parsePrimary (rec : Rec) : Toks → PRes (Expression × Toks)
  | [] => .error .eof
  | .int value :: t => .ok (.int value ((parseScalar t).1.map EScalar.scalar), (parseScalar t).2)
  | .string content :: t => .ok (.str content, t)
  | .true :: t => .ok (.bool true, t)
  | .false :: t => .ok (.bool false, t)
  | .ident name :: t =>
    match eatTok .doubleColon t with
    | some t => do
      let (variant, t) ← expectIdent t
      .ok (.enumAccess name variant, t)
    | none => do
      let p ← peekTok .leftParen t
      if p then do
        let (as, t) ← rec .args t
        .ok (.call name as, t)
      else .ok (.ref name, t)
  | .leftParen :: t => do
    let (e, t) ← rec .expr t
    let t ← expectTok .rightParen t
    .ok (e, t)
  | tok :: _ => .error (.unexpected tok)

/-- parser/mod.rs 31-33, 45-46 (`parse_arguments`). -/
def parseArgs (rec : Rec) (t : Toks) : PRes (List Expression × Toks) :=
  match eatTok .leftParen t with
  | some t => rec (.argsLoop []) t
  | none => .ok ([], t)

/-- parser/mod.rs 34-44. -/
def parseArgsLoop (rec : Rec) (acc : List Expression) (t : Toks) : PRes (List Expression × Toks) :=
  match eatTok .rightParen t with
  | some t => .ok (acc, t)
  | none => do
    let (e, t) ← rec .expr t
    match eatTok .comma t with
    | some t => rec (.argsLoop (acc ++ [e])) t
    | none => do
      let t ← expectTok .rightParen t
      .ok (acc ++ [e], t)

/-- types/mod.rs 25-53: a type that is not a container, enum or bitfield. -/
def parseSimple (rec : Rec) (t : Toks) : PRes (Ty × Toks) :=
  match parseScalar t with
  | (some s, t) => .ok (.scalar s, t)
  | (none, t) =>
    match t with
    | .f32 :: t => .ok (.f32, t)
    | .f64 :: t => .ok (.f64, t)
    | .bool :: t => .ok (.bool, t)
    | .ident name :: t => do
      let (as, t) ← rec .args t
      .ok (.ref name as, t)
    | tok :: _ => .error (.unexpected tok)
    | [] => .error .eof

/-- types/mod.rs 21-54. -/
def parseRaw (rec : Rec) (t : Toks) : PRes (Ty × Toks) :=
  match t with
  | .container :: _ => rec .container t
  | .enum :: _ => rec .enum t
  | .bitfield :: _ => rec .bitfield t
  | _ => parseSimple rec t

/-- types/mod.rs 18-59 (`parse_type`). -/
def parseType (rec : Rec) (t : Toks) : PRes (Ty × Toks) := do
  let (out, t) ← parseRaw rec t
  rec (.typeLoop out) t

/-- types/mod.rs 61-74. -/
def parseTypeLoop (rec : Rec) (out : Ty) (t : Toks) : PRes (Ty × Toks) :=
  match eatTok .leftSquare t with
  | some t => do
    let ((expandable, inner), t) ← rec .len t
    let t ← expectTok .rightSquare t
    rec (.typeLoop (.array out expandable inner)) t
  | none => .ok (out, t)

/-- types/array.rs 5-9. -/
def parseLenExpr (rec : Rec) (t : Toks) : PRes (Option Expression × Toks) := do
  let p ← peekTok .rightSquare t
  if p then .ok (none, t)
  else do
    let (e, t) ← rec .expr t
    .ok (some e, t)

/-- types/array.rs 3-24 (`parse_length_constraint`); the `unwrap` of line 20 fails if there is neither
`..` nor an expression. -/
def parseLen (rec : Rec) (t : Toks) : PRes ((Bool × Option Expression) × Toks) := do
  let (expression, t') ← parseLenExpr rec ((eatTok .dotDot t).getD t)
  if (eatTok .dotDot t).isNone && expression.isNone then .error .emptyLength
  else if (eatTok .dotDot t).isNone && expression.isNone then .error .panic
  else .ok (((eatTok .dotDot t).isSome, expression), t')

/-- types/container.rs 6-12. -/
def parseBracket (rec : Rec) (t : Toks) : PRes (Option Expression × Toks) :=
  match eatTok .leftSquare t with
  | some t => do
    let (e, t) ← rec .expr t
    let t ← expectTok .rightSquare t
    .ok (some e, t)
  | none => .ok (none, t)

/-- types/container.rs 3-59 (`parse_container`) without the loop. -/
def parseContainer (rec : Rec) (t : Toks) : PRes (Ty × Toks) := do
  let t ← expectTok .container t
  let (length, t) ← parseBracket rec t
  let (flags, t) ← parseFlags t
  let t ← expectTok .leftCurly t
  let (items, t) ← rec (.containerLoop []) t
  let t ← expectTok .rightCurly t
  .ok (.container length flags items, t)

/-- types/container.rs 20-49. -/
def parseContainerLoop (rec : Rec) (acc : List Item) (t : Toks) : PRes (List Item × Toks) := do
  let p ← peekTok .rightCurly t
  if p then .ok (acc, t)
  else
    match eatTok .dot t with
    | some t => do
      let (name, t) ← expectIdent t
      if name = "pad" then do
        let t ← expectTok .colon t
        let (e, t) ← rec .expr t
        match eatTok .comma t with
        | some t => rec (.containerLoop (acc ++ [.pad e])) t
        | none => .ok (acc ++ [.pad e], t)
      else .error (.unknownDirective name)
    | none => do
      let (name, t) ← expectIdent t
      let t ← expectTok .colon t
      let (f, t) ← rec .field t
      match eatTok .comma t with
      | some t => rec (.containerLoop (acc ++ [.field name f])) t
      | none => .ok (acc ++ [.field name f], t)

/-- types/enum_.rs 9-13. -/
def parseEnumRhs (rec : Rec) (t : Toks) : PRes (EnumVal × Toks) :=
  match eatTok .default t with
  | some t => .ok (.default, t)
  | none => do
    let (e, t) ← rec .expr t
    .ok (.expr e, t)

/-- types/enum_.rs 3-14 (`parse_enum_value`). -/
def parseEnumValue (rec : Rec) (first : Bool) (t : Toks) : PRes (EnumVal × Toks) :=
  if first then do
    let t ← expectTok .equal t
    parseEnumRhs rec t
  else
    match eatTok .equal t with
    | some t => parseEnumRhs rec t
    | none => .ok (.none, t)

/-- types/enum_.rs 16-45 (`parse_enum`) without the loop. -/
def parseEnum (rec : Rec) (t : Toks) : PRes (Ty × Toks) := do
  let t ← expectTok .enum t
  match parseScalar t with
  | (none, _) => .error .enumMissingRep
  | (some rep, t) => do
    let t ← expectTok .leftCurly t
    let (items, t) ← rec (.enumLoop []) t
    let t ← expectTok .rightCurly t
    .ok (.enum rep items, t)

/-- types/enum_.rs 25-36. -/
def parseEnumLoop (rec : Rec) (acc : List EnumItem) (t : Toks) : PRes (List EnumItem × Toks) := do
  let (name, t) ← expectIdent t
  let (v, t) ← parseEnumValue rec acc.isEmpty t
  match eatTok .comma t with
  | none => .ok (acc ++ [.mk name v], t)
  | some t => do
    let p ← peekTok .rightCurly t
    if p then .ok (acc ++ [.mk name v], t)
    else rec (.enumLoop (acc ++ [.mk name v])) t

/-- types/bitfield.rs 3-41 (`parse_bitfield`) without the loop. -/
def parseBitfield (rec : Rec) (t : Toks) : PRes (Ty × Toks) := do
  let t ← expectTok .bitfield t
  match parseScalar t with
  | (none, _) => .error .bitfieldMissingRep
  | (some rep, t) => do
    let t ← expectTok .leftCurly t
    let (items, t) ← rec (.bitLoop []) t
    let t ← expectTok .rightCurly t
    .ok (.bitfield rep items, t)

/-- types/bitfield.rs 14-23. -/
def parseBitValue (rec : Rec) (first : Bool) (t : Toks) : PRes (Option Expression × Toks) :=
  if first then do
    let t ← expectTok .equal t
    let (e, t) ← rec .expr t
    .ok (some e, t)
  else
    match eatTok .equal t with
    | some t => do
      let (e, t) ← rec .expr t
      .ok (some e, t)
    | none => .ok (none, t)

/-- types/bitfield.rs 12-32. -/
def parseBitLoop (rec : Rec) (acc : List BitItem) (t : Toks) : PRes (List BitItem × Toks) := do
  let (name, t) ← expectIdent t
  let (v, t) ← parseBitValue rec (acc.length = 0) t
  match eatTok .comma t with
  | none => .ok (acc ++ [.mk name v], t)
  | some t => do
    let p ← peekTok .rightCurly t
    if p then .ok (acc ++ [.mk name v], t)
    else rec (.bitLoop (acc ++ [.mk name v])) t

/-- field.rs 36-44 (`parse_conditional_clause`). -/
def parseCond (rec : Rec) (t : Toks) : PRes (Option Expression × Toks) :=
  match eatTok .leftCurly t with
  | some t => do
    let (e, t) ← rec .expr t
    let t ← expectTok .rightCurly t
    .ok (some e, t)
  | none => .ok (none, t)

/-- field.rs 46-53 (`parse_calculated_clause`). -/
def parseCalc (rec : Rec) (t : Toks) : PRes (Option Expression × Toks) :=
  match eatTok .equal t with
  | some t => do
    let (e, t) ← rec .expr t
    .ok (some e, t)
  | none => .ok (none, t)

/-- field.rs 3-27 (`parse_field`) and 55-60, 93-98 (`parse_field_components`) without the loop. -/
def parseField (rec : Rec) (t : Toks) : PRes (Field × Toks) := do
  let (ty, t) ← rec .type t
  let (calculated, t) ← rec .calcd t
  let (flags, t) ← parseFlags t
  let (condition, t) ← rec .cond t
  let (transforms, t) ← rec (.transLoop []) t
  .ok (.mk ty flags calculated condition transforms, t)

/-- field.rs 64-91; lines 67-80 repeat `parse_arguments`. -/
def parseTransLoop (rec : Rec) (acc : List Transform) (t : Toks) : PRes (List Transform × Toks) :=
  match eatTok .arrow t with
  | some t => do
    let (name, t) ← expectIdent t
    let (as, t) ← rec .args t
    let (c, t) ← rec .cond t
    rec (.transLoop (acc ++ [.mk name as c])) t
  | none => .ok (acc, t)

/-- declaration/type_declaration.rs 6-7, 29. -/
def parseParams (rec : Rec) (t : Toks) : PRes (List TypeArg × Toks) :=
  match eatTok .leftParen t with
  | some t => rec (.typeArgsLoop []) t
  | none => .ok ([], t)

/-- declaration/type_declaration.rs 3-40 without the loop. -/
def parseTypeDecl (rec : Rec) (t : Toks) : PRes (Ast.Decl × Toks) := do
  let t ← expectTok .type t
  let (name, t) ← expectIdent t
  let (as, t) ← parseParams rec t
  let t ← expectTok .equal t
  let (f, t) ← rec .field t
  .ok (.type name as f, t)

/-- declaration/type_declaration.rs 13-17. -/
def parseDflt (rec : Rec) (t : Toks) : PRes (Option Expression × Toks) :=
  match eatTok .question t with
  | some t => do
    let (e, t) ← rec .expr t
    .ok (some e, t)
  | none => .ok (none, t)

/-- declaration/type_declaration.rs 8-28. -/
def parseTypeArgsLoop (rec : Rec) (acc : List TypeArg) (t : Toks) : PRes (List TypeArg × Toks) :=
  match eatTok .rightParen t with
  | some t => .ok (acc, t)
  | none => do
    let (name, t) ← expectIdent t
    let t ← expectTok .colon t
    let (ty, t) ← rec .type t
    let (dv, t) ← parseDflt rec t
    match eatTok .comma t with
    | some t => rec (.typeArgsLoop (acc ++ [⟨name, ty, dv⟩])) t
    | none => do
      let t ← expectTok .rightParen t
      .ok (acc ++ [⟨name, ty, dv⟩], t)

/-- declaration/import_declaration.rs 3-37 without the loop. -/
def parseImportDecl (rec : Rec) (t : Toks) : PRes (Ast.Decl × Toks) := do
  let t ← expectTok .import_ t
  let (items, t) ← rec (.importLoop []) t
  let t ← expectTok .from_ t
  let (src, t) ← expectString t
  .ok (.import_ items src, t)

/-- declaration/import_declaration.rs 8-12. -/
def parseAlias (t : Toks) : PRes (Option String × Toks) :=
  match eatTok .as_ t with
  | some t => do
    let (a, t) ← expectIdent t
    .ok (some a, t)
  | none => .ok (none, t)

/-- declaration/import_declaration.rs 6-27. -/
def parseImportLoop (rec : Rec) (acc : List ImportItem) (t : Toks) : PRes (List ImportItem × Toks) := do
  let (name, t) ← expectIdent t
  let (alias, t) ← parseAlias t
  match eatTok .comma t with
  | none => .ok (acc ++ [⟨name, alias⟩], t)
  | some t => do
    let p ← peekTok .from_ t
    if p then .ok (acc ++ [⟨name, alias⟩], t)
    else rec (.importLoop (acc ++ [⟨name, alias⟩])) t

/-- declaration/ffi_declaration.rs 12-17. -/
def ffiKind : Token → PRes FfiKind
  | .transform => .ok .transform
  | .type => .ok .type
  | .function => .ok .function
  | _ => .error .panic

/-- declaration/ffi_declaration.rs 3-19. -/
def parseFfiDecl (t : Toks) : PRes (Ast.Decl × Toks) := do
  let t ← expectTok .importFfi t
  let (name, t) ← expectIdent t
  let t ← expectTok .as_ t
  match eatAny [.transform, .type, .function] t with
  | some (k, t) => do
    let k ← ffiKind k
    .ok (.ffi name k, t)
  | none =>
    match t with
    | tok :: _ => .error (.unexpected tok)
    | [] => .error .eof

/-- declaration/const_declaration.rs 3-17. -/
def parseConstDecl (rec : Rec) (t : Toks) : PRes (Ast.Decl × Toks) := do
  let t ← expectTok .const t
  let (name, t) ← expectIdent t
  let t ← expectTok .colon t
  let (ty, t) ← rec .type t
  let t ← expectTok .equal t
  let (e, t) ← rec .expr t
  .ok (.const name ty e, t)

/-- declaration/mod.rs 16-27. -/
def parseBody (rec : Rec) (t : Toks) : PRes (Ast.Decl × Toks) :=
  match t with
  | .type :: _ => rec .typeDecl t
  | .import_ :: _ => rec .importDecl t
  | .importFfi :: _ => parseFfiDecl t
  | .const :: _ => rec .constDecl t
  | tok :: _ => .error (.unexpected tok)
  | [] => .error .eof

/-- declaration/mod.rs 15-30 (`parse_declaration`). -/
def parseDecl (rec : Rec) (t : Toks) : PRes (Ast.Decl × Toks) := do
  let (d, t) ← parseBody rec t
  let t ← expectTok .semicolon t
  .ok (d, t)

/-- program.rs 5-8. -/
def parseProgramLoop (rec : Rec) (acc : List Ast.Decl) (t : Toks) : PRes (List Ast.Decl × Toks) :=
  match t with
  | [] => .ok (acc, [])
  | _ :: _ => do
    let (d, t) ← rec .decl t
    rec (.programLoop (acc ++ [d])) t

/-- One call, with the functions it calls given. -/
def step (rec : Rec) : Rec
  | .expr => parseExpr rec
  | .lvl l => parseLvl rec l
  | .lvlLoop l e => parseLvlLoop rec l e
  | .cast => parseCast rec
  | .castLoop e => parseCastLoop rec e
  | .unary => parseUnary rec
  | .index => parseIndex rec
  | .indexLoop e => parseIndexLoop rec e
  | .primary => parsePrimary rec
  | .args => parseArgs rec
  | .argsLoop acc => parseArgsLoop rec acc
  | .type => parseType rec
  | .typeLoop out => parseTypeLoop rec out
  | .len => parseLen rec
  | .container => parseContainer rec
  | .containerLoop acc => parseContainerLoop rec acc
  | .enum => parseEnum rec
  | .enumLoop acc => parseEnumLoop rec acc
  | .bitfield => parseBitfield rec
  | .bitLoop acc => parseBitLoop rec acc
  | .field => parseField rec
  | .cond => parseCond rec
  | .calcd => parseCalc rec
  | .transLoop acc => parseTransLoop rec acc
  | .typeDecl => parseTypeDecl rec
  | .typeArgsLoop acc => parseTypeArgsLoop rec acc
  | .importDecl => parseImportDecl rec
  | .importLoop acc => parseImportLoop rec acc
  | .constDecl => parseConstDecl rec
  | .decl => parseDecl rec
  | .programLoop acc => parseProgramLoop rec acc

/-- Calls nested at most `n` deep. -/
def P : Nat → Rec
  | 0 => fun _ _ => .error .diverge
  | n + 1 => step (P n)

/-- program.rs 3-9 (`parse_program`), with a depth that suffices for every token list
(`Props.parse_terminates`). -/
def parseProgram (t : Toks) : PRes Program := do
  let (ds, _) ← P (32 * t.length + 32) (.programLoop []) t
  .ok ds

/-- parser/mod.rs 25-29 (`parse`): tokenize without comments, then parse. -/
def parse (src : Text) : PRes Program :=
  match tokenize src true with
  | .error e => .error (.token e)
  | .ok toks => parseProgram (toks.map STok.token)

end Verif
