import Verif.ParserSpec
/-!
# Printing syntax trees: specification for C31 and C32

How a tree is written as tokens, with parentheses only where the precedences ask for them, and which
trees can be written.
-/
namespace Verif.Props

open Ast

/-- Spec: the precedence of the outermost operator. -/
def level : Expression → Nat
  | .ternary .. => 0
  | .binary op .. => prec op
  | .cast .. => 11
  | .unary .. => 12
  | .index .. | .member .. => 13
  | _ => 14

/-- Spec: parentheses around an operand if its operator binds less than `k`. -/
def wrap (k : Nat) (e : Expression) (toks : List Token) : List Token :=
  if level e < k then .leftParen :: (toks ++ [.rightParen]) else toks

mutual
/-- Spec: an expression as tokens. -/
def printE : Expression → List Token
  | .ternary c a b => wrap 1 c (printE c) ++ .question :: (printE a ++ .colon :: wrap 1 b (printE b))
  | .binary op a b => wrap (prec op) a (printE a) ++ opTok op :: wrap (prec op + 1) b (printE b)
  | .cast e t => wrap 11 e (printE e) ++ .cast :: printT t
  | .unary op e => unTok op :: wrap 12 e (printE e)
  | .index a i => wrap 13 a (printE a) ++ .leftSquare :: (printE i ++ [.rightSquare])
  | .member a m => wrap 13 a (printE a) ++ [.dot, .ident m]
  | .enumAccess n m => [.ident n, .doubleColon, .ident m]
  | .int s none => [.int s]
  | .int s (some k) => .int s :: (scalarTok ⟨k, .big⟩).toList
  | .ref n => [.ident n]
  | .str s => [.string s]
  | .bool true => [.true]
  | .bool false => [.false]
  | .call n as => .ident n :: .leftParen :: (printArgs as ++ [.rightParen])

/-- Spec: arguments, separated by commas. -/
def printArgs : List Expression → List Token
  | [] => []
  | [e] => printE e
  | e :: e' :: es => printE e ++ .comma :: printArgs (e' :: es)

/-- Spec: an expression between two tokens, if there is one. -/
def printOpt (pre post : List Token) : Option Expression → List Token
  | none => []
  | some e => pre ++ (printE e ++ post)

/-- Spec: a type as tokens. -/
def printT : Ty → List Token
  | .container l fs is =>
    .container :: (printOpt [.leftSquare] [.rightSquare] l ++ (flagToks fs ++ .leftCurly :: (printItems is ++ [.rightCurly])))
  | .enum k is => .enum :: ((scalarTok k).toList ++ .leftCurly :: (printEnum is ++ [.rightCurly]))
  | .bitfield k is => .bitfield :: ((scalarTok k).toList ++ .leftCurly :: (printBits is ++ [.rightCurly]))
  | .scalar k => (scalarTok k).toList
  | .array t x l => printT t ++ .leftSquare :: ((if x then [.dotDot] else []) ++ (printOpt [] [] l ++ [.rightSquare]))
  | .f32 => [.f32]
  | .f64 => [.f64]
  | .bool => [.bool]
  | .ref n [] => [.ident n]
  | .ref n (e :: es) => .ident n :: .leftParen :: (printArgs (e :: es) ++ [.rightParen])

/-- Spec: container items, separated by commas. -/
def printItems : List Item → List Token
  | [] => []
  | [i] => printItem i
  | i :: j :: is => printItem i ++ .comma :: printItems (j :: is)

/-- Spec: a container item. -/
def printItem : Item → List Token
  | .field n f => .ident n :: .colon :: printF f
  | .pad e => .dot :: .ident "pad" :: .colon :: printE e

/-- Spec: enum items, separated by commas. -/
def printEnum : List EnumItem → List Token
  | [] => []
  | [i] => printEnumItem i
  | i :: j :: is => printEnumItem i ++ .comma :: printEnum (j :: is)

/-- Spec: an enum item. -/
def printEnumItem : EnumItem → List Token
  | .mk n v => .ident n :: printEnumVal v

/-- Spec: the value of an enum item. -/
def printEnumVal : EnumVal → List Token
  | .none => []
  | .default => [.equal, .default]
  | .expr e => .equal :: printE e

/-- Spec: bitfield items, separated by commas. -/
def printBits : List BitItem → List Token
  | [] => []
  | [i] => printBit i
  | i :: j :: is => printBit i ++ .comma :: printBits (j :: is)

/-- Spec: a bitfield item. -/
def printBit : BitItem → List Token
  | .mk n v => .ident n :: printOpt [.equal] [] v

/-- Spec: a field after its name. -/
def printF : Field → List Token
  | .mk t fs c k ts => printT t ++ (printOpt [.equal] [] c ++ (flagToks fs ++ (printOpt [.leftCurly] [.rightCurly] k ++ printXs ts)))

/-- Spec: transforms. -/
def printXs : List Transform → List Token
  | [] => []
  | x :: xs => printX x ++ printXs xs

/-- Spec: a transform. -/
def printX : Transform → List Token
  | .mk n [] c => .arrow :: .ident n :: printOpt [.leftCurly] [.rightCurly] c
  | .mk n (e :: es) c =>
    .arrow :: .ident n :: .leftParen :: (printArgs (e :: es) ++ .rightParen :: printOpt [.leftCurly] [.rightCurly] c)
end

mutual
/-- Spec: the expression can be written. -/
def SpeltE : Expression → Prop
  | .ternary c a b => SpeltE c ∧ SpeltE a ∧ SpeltE b
  | .binary _ a b => SpeltE a ∧ SpeltE b
  | .cast e t => SpeltE e ∧ SpeltT t
  | .unary _ e => SpeltE e
  | .index a i => SpeltE a ∧ SpeltE i
  | .member a _ => SpeltE a
  | .call _ as => SpeltArgs as
  | .enumAccess .. | .int .. | .ref .. | .str .. | .bool .. => True

/-- Spec: the arguments can be written. -/
def SpeltArgs : List Expression → Prop
  | [] => True
  | e :: es => SpeltE e ∧ SpeltArgs es

/-- Spec: the expression, if there, can be written. -/
def SpeltOpt : Option Expression → Prop
  | none => True
  | some e => SpeltE e

/-- Spec: the type can be written. Enums and bitfields have items, the first with a value; a one byte scalar is big
endian; an array has a length unless it is expandable. -/
def SpeltT : Ty → Prop
  | .container l _ is => SpeltOpt l ∧ SpeltItems is
  | .enum k is => scalarTok k ≠ none ∧ is ≠ [] ∧ SpeltEnum true is
  | .bitfield k is => scalarTok k ≠ none ∧ is ≠ [] ∧ SpeltBits true is
  | .scalar k => scalarTok k ≠ none
  | .array t x l => SpeltT t ∧ SpeltOpt l ∧ (x = true ∨ l ≠ none)
  | .f32 | .f64 | .bool => True
  | .ref _ as => SpeltArgs as

/-- Spec: the items can be written. -/
def SpeltItems : List Item → Prop
  | [] => True
  | i :: is => SpeltItem i ∧ SpeltItems is

/-- Spec: the item can be written. -/
def SpeltItem : Item → Prop
  | .field _ f => SpeltF f
  | .pad e => SpeltE e

/-- Spec: the items can be written; the first has a value if `first`. -/
def SpeltEnum (first : Bool) : List EnumItem → Prop
  | [] => True
  | i :: is => SpeltEnumItem first i ∧ SpeltEnum false is

/-- Spec: the item can be written. -/
def SpeltEnumItem (first : Bool) : EnumItem → Prop
  | .mk _ v => SpeltEnumVal first v

/-- Spec: the value can be written. -/
def SpeltEnumVal (first : Bool) : EnumVal → Prop
  | .none => first = false
  | .default => True
  | .expr e => SpeltE e

/-- Spec: the items can be written; the first has a value if `first`. -/
def SpeltBits (first : Bool) : List BitItem → Prop
  | [] => True
  | i :: is => SpeltBit first i ∧ SpeltBits false is

/-- Spec: the item can be written. -/
def SpeltBit (first : Bool) : BitItem → Prop
  | .mk _ v => SpeltOpt v ∧ (first = true → v ≠ none)

/-- Spec: the field can be written: a calculated field has no flags. -/
def SpeltF : Field → Prop
  | .mk t fs c k ts => SpeltT t ∧ SpeltOpt c ∧ SpeltOpt k ∧ SpeltXs ts ∧ (c ≠ none → fs = [])

/-- Spec: the transforms can be written. -/
def SpeltXs : List Transform → Prop
  | [] => True
  | x :: xs => SpeltX x ∧ SpeltXs xs

/-- Spec: the transform can be written. -/
def SpeltX : Transform → Prop
  | .mk _ as c => SpeltArgs as ∧ SpeltOpt c
end

/-- Spec: a type parameter. -/
def printParam (p : TypeArg) : List Token := .ident p.name :: .colon :: (printT p.type ++ printOpt [.question] [] p.default)

/-- Spec: phrases separated by commas. -/
def sepComma : List (List Token) → List Token
  | [] => []
  | [u] => u
  | u :: v :: us => u ++ .comma :: sepComma (v :: us)

/-- Spec: an imported name. -/
def printImport : ImportItem → List Token
  | ⟨n, none⟩ => [.ident n]
  | ⟨n, some a⟩ => [.ident n, .as_, .ident a]

/-- Spec: the parameters of a type declaration. -/
def printParams : List TypeArg → List Token
  | [] => []
  | p :: ps => .leftParen :: (sepComma ((p :: ps).map printParam) ++ [.rightParen])

/-- Spec: a declaration. -/
def printDecl : Ast.Decl → List Token
  | .type n ps f => .type :: .ident n :: (printParams ps ++ .equal :: (printF f ++ [.semicolon]))
  | .import_ is src => .import_ :: (sepComma (is.map printImport) ++ [.from_, .string src, .semicolon])
  | .ffi n k => [.importFfi, .ident n, .as_, ffiTok k, .semicolon]
  | .const n t e => .const :: .ident n :: .colon :: (printT t ++ .equal :: (printE e ++ [.semicolon]))

/-- Spec: a program. -/
def printProgram (ds : Program) : List Token := ds.flatMap printDecl

/-- Spec: the declaration can be written: an import imports something. -/
def SpeltDecl : Ast.Decl → Prop
  | .type _ ps f => (∀ p ∈ ps, SpeltT p.type ∧ SpeltOpt p.default) ∧ SpeltF f
  | .import_ is _ => is ≠ []
  | .ffi .. => True
  | .const _ t e => SpeltT t ∧ SpeltE e

end Verif.Props
