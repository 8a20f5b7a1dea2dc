/-!
# The tokenizer

Models `/repo/protospec-build/src/tokenizer.rs`. The source text is the list of its UTF-8 bytes
(`input.as_bytes()`, line 541). Identifiers and integers are ASCII, so their bytes and their
characters are the same thing; comments and strings keep bytes (`from_utf8_lossy` of a part of a
valid string cut at ASCII characters changes nothing).
-/
namespace Verif

abbrev Text := List UInt8

/-- The byte of an ASCII character (`b'x'`). -/
def byte (c : Char) : UInt8 := c.toNat.toUInt8

/-- The bytes of an ASCII string. -/
def ascii (s : String) : Text := s.toList.map byte

/-- `String::from_utf8` of ASCII bytes. -/
def ofAscii (t : Text) : String := String.ofList (t.map fun b => Char.ofNat b.toNat)

/-- tokenizer.rs 5-85. -/
inductive Token
  | ident (s : String)
  | string (content : Text)
  | int (s : String)
  | commentLine (s : Text)
  | commentBlock (s : Text)
  | type | equal | as_ | import_ | comma | from_ | importFfi | transform | function | const
  | dotDot | dot | elvis
  | u8 | u16 | u32 | u64 | u128 | i8 | i16 | i32 | i64 | i128
  | u16le | u32le | u64le | u128le | i16le | i32le | i64le | i128le
  | f32 | f64 | bool
  | lt | gt | arrow | container | leftSquare | rightSquare | leftCurly | rightCurly
  | enum | default | bitfield
  | ltEq | gtEq | eq | ne | question | colon | doubleColon | semicolon
  | plus | minus | mul | div | mod | not | leftParen | rightParen | cast
  | or | and | bitOr | bitXor | bitAnd | shr | shl | shrSigned | bitNot | true | false
  deriving DecidableEq, Repr

/-- Rust `is_ascii_whitespace`: space, tab, newline, form feed, carriage return. -/
def isSpace (b : UInt8) : Bool := b = 32 || b = 9 || b = 10 || b = 12 || b = 13

/-- Rust `is_ascii_digit`. -/
def isDigit (b : UInt8) : Bool := byte '0' ≤ b && b ≤ byte '9'

/-- Rust `is_ascii_hexdigit`. -/
def isHex (b : UInt8) : Bool :=
  isDigit b || (byte 'a' ≤ b && b ≤ byte 'f') || (byte 'A' ≤ b && b ≤ byte 'F')

/-- The value of a hexadecimal digit. -/
def hexVal (b : UInt8) : UInt8 :=
  if isDigit b then b - byte '0' else if byte 'a' ≤ b then b - byte 'a' + 10 else b - byte 'A' + 10

/-- `is_ascii_alphabetic() || == b'_'` (tokenizer.rs 188). -/
def isIdentStart (b : UInt8) : Bool :=
  (byte 'a' ≤ b && b ≤ byte 'z') || (byte 'A' ≤ b && b ≤ byte 'Z') || b = byte '_'

/-- `is_ascii_alphanumeric() || == b'_'` (tokenizer.rs 193). -/
def isIdentPart (b : UInt8) : Bool := isIdentStart b || isDigit b

/-- The words of tokenizer.rs 411-448. -/
def keywords : List (String × Token) :=
  [("type", .type), ("as", .as_), ("import", .import_), ("import_ffi", .importFfi),
   ("i8", .i8), ("i16", .i16), ("i32", .i32), ("i64", .i64), ("i128", .i128),
   ("u8", .u8), ("u16", .u16), ("u32", .u32), ("u64", .u64), ("u128", .u128),
   ("i16le", .i16le), ("i32le", .i32le), ("i64le", .i64le), ("i128le", .i128le),
   ("u16le", .u16le), ("u32le", .u32le), ("u64le", .u64le), ("u128le", .u128le),
   ("transform", .transform), ("function", .function), ("const", .const), ("container", .container),
   ("f32", .f32), ("f64", .f64), ("enum", .enum), ("default", .default), ("bitfield", .bitfield),
   ("bool", .bool), ("from", .from_), ("true", .true), ("false", .false)]

/-- Why tokenizing fails: a Rust panic, the error of tokenizer.rs 575-579 with its position, or no
end of the loop (shown impossible). -/
inductive TokErr
  | panic
  | unexpected (index : Nat)
  | diverge
  deriving DecidableEq, Repr

abbrev TRes := Except TokErr

/-- tokenizer.rs 173-182 (`eat`). -/
def eat (inp wanted : Text) : Option Text :=
  if inp.length < wanted.length then none
  else if inp.take wanted.length = wanted then some (inp.drop wanted.length)
  else none

/-- tokenizer.rs 184-199 (`eat_identifier`): the identifier and the rest. -/
def eatIdentifier : Text → Option (Text × Text)
  | [] => none
  | c :: cs => if isIdentStart c then some (c :: cs.takeWhile isIdentPart, cs.dropWhile isIdentPart) else none

/-- The string loop of tokenizer.rs 208-251, after the opening quote: the rest after the closing quote
and the content, `none` if there is no closing quote. After two hex digits the index has moved to the
second one when the two-byte slice is taken (215-224), so the value is that of the second digit and
the byte after it, which is read again afterwards; the slice or its parsing panics if that byte is
missing or not a hex digit. -/
def strLoop : Text → TRes (Option (Text × Text))
  | [] => .ok none
  | c :: cs =>
    if c = byte '\\' then
      match cs with
      | [] => .ok none
      | d :: ds =>
        if isHex d then
          match ds with
          | [] => .ok none
          | e :: es =>
            if isHex e then
              match es with
              | [] => .error .panic
              | f :: fs =>
                if isHex f then do
                  let r ← strLoop (f :: fs)
                  .ok (r.map fun p => (p.1, (16 * hexVal e + hexVal f) :: p.2))
                else .error .panic
            else do
              let r ← strLoop (e :: es)
              .ok (r.map fun p => (p.1, hexVal d :: p.2))
        else do
          let r ← strLoop ds
          .ok (r.map fun p => (p.1, d :: p.2))
    else if c = byte '"' then .ok (some (cs, []))
    else do
      let r ← strLoop cs
      .ok (r.map fun p => (p.1, c :: p.2))

/-- tokenizer.rs 252-279: the text of a number starting with the digit `c`, and the rest. -/
def lexInt (c : UInt8) (cs : Text) : Text × Text :=
  match cs with
  | x :: ds =>
    if c = byte '0' ∧ x = byte 'x' then (c :: x :: ds.takeWhile isHex, ds.dropWhile isHex)
    else (c :: cs.takeWhile isDigit, cs.dropWhile isDigit)
  | [] => ([c], [])

/-- tokenizer.rs 315-321: the rest of the line and what comes after the newline. -/
def lexLine (cs : Text) : Text × Text :=
  (cs.takeWhile (· != byte '\n'), (cs.dropWhile (· != byte '\n')).drop 1)

/-- tokenizer.rs 332-337: up to the first `*/`, or everything. -/
def lexBlock : Text → Text × Text
  | [] => ([], [])
  | [a] => ([a], [])
  | a :: b :: cs =>
    if a = byte '*' ∧ b = byte '/' then ([], cs)
    else
      let (t, r) := lexBlock (b :: cs)
      (a :: t, r)

/-- `if let Some(input) = eat(input, ..) {..} else ..`: tries spellings in order. -/
def firstOf (inp : Text) : List (String × Token) → Option (Text × Token)
  | [] => none
  | (w, t) :: rest =>
    match eat inp (ascii w) with
    | some r => some (r, t)
    | none => firstOf inp rest

/-- The operators of tokenizer.rs 280-404, in the order in which they are tried (`/` is treated
separately because of comments). -/
def operators : List (String × Token) :=
  [("==", .eq), ("=", .equal), (",", .comma), (";", .semicolon), ("?:", .elvis), ("?", .question),
   ("[", .leftSquare), ("]", .rightSquare), ("{", .leftCurly), ("}", .rightCurly),
   ("(", .leftParen), (")", .rightParen), ("+", .plus), ("*", .mul), ("%", .mod), ("^", .bitXor),
   ("~", .bitNot), ("||", .or), ("|", .bitOr), ("&&", .and), ("&", .bitAnd), ("..", .dotDot),
   (".", .dot), (":>", .cast), ("::", .doubleColon), (":", .colon), ("<=", .ltEq), ("<<", .shl),
   ("<", .lt), (">=", .gtEq), (">>>", .shrSigned), (">>", .shr), (">", .gt), ("->", .arrow),
   ("-", .minus), ("!=", .ne), ("!", .not)]

/-- The `/` case of tokenizer.rs 314-347, after the slash. -/
def gobbleSlash (cs : Text) : Text × Option Token :=
  match cs with
  | x :: rest =>
    if x = byte '/' then
      let (c, r) := lexLine rest
      (r, some (.commentLine c))
    else if x = byte '*' then
      if rest = [] then ([], none)
      else
        let (c, r) := lexBlock rest
        (r, some (.commentBlock c))
    else (cs, some .div)
  | [] => ([], some .div)

/-- The identifier case of tokenizer.rs 407-450. -/
def identToken (t : Text) : Token :=
  match keywords.lookup (ofAscii t) with
  | some k => k
  | none => .ident (ofAscii t)

/-- tokenizer.rs 202-453 (`Token::gobble`): what is left of the input, and a token if there is one.
The `match` on the first byte is a chain of tests here; no two of its arms overlap. -/
def gobble (inp : Text) : TRes (Text × Option Token) :=
  match inp with
  | [] => .ok ([], none)
  | c :: cs =>
    if isSpace c then .ok (cs, none)
    else if c = byte '"' then do
      let r ← strLoop cs
      match r with
      | some (rest, content) => .ok (rest, some (.string content))
      | none => .ok (inp, none)
    else if isDigit c then
      let (t, rest) := lexInt c cs
      .ok (rest, some (.int (ofAscii t)))
    else if c = byte '/' then .ok (gobbleSlash cs)
    else
      match firstOf inp operators with
      | some (rest, t) => .ok (rest, some t)
      | none =>
        match eatIdentifier inp with
        | some (t, rest) => .ok (rest, some (identToken t))
        | none => .ok (inp, none)

/-- tokenizer.rs 456-462. -/
structure Span where
  lineStart : Nat
  lineStop : Nat
  colStart : Nat
  colStop : Nat
  deriving DecidableEq, Repr

/-- tokenizer.rs 521-525 (`SpannedToken`). -/
structure STok where
  token : Token
  span : Span
  deriving DecidableEq, Repr

/-- Loop state of `tokenize` (tokenizer.rs 541-545). -/
structure TState where
  index : Nat
  lineNo : Nat
  lineStart : Nat
  deriving DecidableEq, Repr

/-- tokenizer.rs 543: the literal `064` is the decimal number 64. -/
def TState.init : TState := ⟨64, 1, 0⟩

/-- tokenizer.rs 549-558: lines ended by a comment. -/
def tokenLines : Token → Nat
  | .commentLine _ => 1
  | .commentBlock s => s.countP (· == byte '\n')
  | _ => 0

/-- The loop of tokenizer.rs 546-589. `fuel` bounds the iterations. -/
def tokLoop : Nat → TState → Text → TRes (List STok)
  | 0, _, inp => if inp = [] then .ok [] else .error .diverge
  | fuel + 1, st, inp =>
    if inp = [] then .ok []
    else do
      let r ← gobble inp
      match r with
      | (out, some tok) => do
        let n := inp.length - out.length
        let line := st.lineNo + tokenLines tok
        let s : Span := ⟨st.lineNo, line, st.index - st.lineStart + 1, st.index - st.lineStart + n + 1⟩
        let rest ← tokLoop fuel ⟨st.index + n, line, st.lineStart⟩ out
        .ok (⟨tok, s⟩ :: rest)
      | (out, none) =>
        if out.length = 0 then .ok []
        else if out.length = inp.length then .error (.unexpected st.index)
        else
          let index := st.index + (inp.length - out.length)
          if inp.head? = some (byte '\n') then tokLoop fuel ⟨index, st.lineNo + 1, index⟩ out
          else tokLoop fuel ⟨index, st.lineNo, st.lineStart⟩ out

/-- `Token::CommentLine(_) | Token::CommentBlock(_)`. -/
def Token.isComment : Token → Bool
  | .commentLine _ | .commentBlock _ => Bool.true
  | _ => Bool.false

/-- tokenizer.rs 540-598 (`tokenize`). -/
def tokenize (inp : Text) (strip : Bool) : TRes (List STok) := do
  let toks ← tokLoop inp.length .init inp
  if strip then .ok (toks.filter fun t => !t.token.isComment) else .ok toks

/-- tokenizer.rs 87-171 (`Display for Token`). Strings are shown for contents that are valid UTF-8
(`from_utf8_lossy` is then the identity). -/
def Token.show : Token → Text
  | .ident s => ascii s
  | .string s => [byte '"'] ++ s ++ [byte '"']
  | .int s => ascii s
  | .commentLine s => ascii "//" ++ s ++ ascii "\n"
  | .commentBlock s => ascii "/*" ++ s ++ ascii "*/ "
  | .type => ascii "type " | .equal => ascii "= " | .as_ => ascii "as " | .import_ => ascii "import "
  | .comma => ascii "," | .from_ => ascii "from " | .importFfi => ascii "import_ffi "
  | .transform => ascii "transform " | .function => ascii "function " | .const => ascii "const "
  | .dotDot => ascii ".. " | .dot => ascii ". " | .elvis => ascii "?: "
  | .u8 => ascii "u8 " | .u16 => ascii "u16 " | .u32 => ascii "u32 " | .u64 => ascii "u64 "
  | .u128 => ascii "u128 " | .i8 => ascii "i8 " | .i16 => ascii "i16 " | .i32 => ascii "i32 "
  | .i64 => ascii "i64 " | .i128 => ascii "i128 "
  | .u16le => ascii "u16le " | .u32le => ascii "u32le " | .u64le => ascii "u64le "
  | .u128le => ascii "u128le " | .i16le => ascii "i16le " | .i32le => ascii "i32le "
  | .i64le => ascii "i64le " | .i128le => ascii "i128le "
  | .f32 => ascii "f32 " | .f64 => ascii "f64 " | .bool => ascii "bool "
  | .lt => ascii "< " | .gt => ascii "> " | .arrow => ascii "-> " | .container => ascii "container "
  | .leftSquare => ascii "[" | .rightSquare => ascii "]" | .leftCurly => ascii "{"
  | .rightCurly => ascii "}" | .enum => ascii "enum " | .default => ascii "default "
  | .bitfield => ascii "bitfield " | .ltEq => ascii "<= " | .gtEq => ascii ">= "
  | .eq => ascii "== " | .ne => ascii "!= " | .question => ascii "?" | .colon => ascii ":"
  | .doubleColon => ascii "::" | .semicolon => ascii ";" | .plus => ascii "+" | .minus => ascii "-"
  | .mul => ascii "*" | .div => ascii "/ " | .mod => ascii "%" | .not => ascii "! "
  | .leftParen => ascii "(" | .rightParen => ascii ")" | .cast => ascii ":> " | .or => ascii "|| "
  | .and => ascii "&& " | .bitOr => ascii "| " | .bitXor => ascii "^" | .bitAnd => ascii "& "
  | .shr => ascii ">> " | .shl => ascii "<< " | .shrSigned => ascii ">>> " | .bitNot => ascii "~"
  | .true => ascii "true " | .false => ascii "false "

/-- tokenizer.rs 492-519 (`Add for Span`). -/
def Span.add (a b : Span) : Span :=
  if a.lineStart = b.lineStop then
    ⟨a.lineStart, a.lineStop, min a.colStart b.colStart, max a.colStop b.colStop⟩
  else if a.lineStart < b.lineStart then ⟨a.lineStart, b.lineStop, a.colStart, b.colStop⟩
  else ⟨b.lineStart, a.lineStop, b.colStart, a.colStop⟩

end Verif
