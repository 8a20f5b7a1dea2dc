import Verif.Tokenizer
/-!
# Lexical grammar: specification for C26-C30

The lexical grammar (`Lexeme`, `Lexes`) is stated without reference to the tokenizer: which byte
strings spell a token, and that a source text is cut into tokens by always taking the longest
possible spelling.
-/
namespace Verif.Props

/-! ## Specification -/

/-- Spec: the spelling of the tokens that have only one. -/
def fixedText : Token → Option String
  | .ident _ | .string _ | .int _ | .commentLine _ | .commentBlock _ => none
  | .type => some "type" | .equal => some "=" | .as_ => some "as" | .import_ => some "import"
  | .comma => some "," | .from_ => some "from" | .importFfi => some "import_ffi"
  | .transform => some "transform" | .function => some "function" | .const => some "const"
  | .dotDot => some ".." | .dot => some "." | .elvis => some "?:"
  | .u8 => some "u8" | .u16 => some "u16" | .u32 => some "u32" | .u64 => some "u64"
  | .u128 => some "u128" | .i8 => some "i8" | .i16 => some "i16" | .i32 => some "i32"
  | .i64 => some "i64" | .i128 => some "i128"
  | .u16le => some "u16le" | .u32le => some "u32le" | .u64le => some "u64le" | .u128le => some "u128le"
  | .i16le => some "i16le" | .i32le => some "i32le" | .i64le => some "i64le" | .i128le => some "i128le"
  | .f32 => some "f32" | .f64 => some "f64" | .bool => some "bool"
  | .lt => some "<" | .gt => some ">" | .arrow => some "->" | .container => some "container"
  | .leftSquare => some "[" | .rightSquare => some "]" | .leftCurly => some "{"
  | .rightCurly => some "}" | .enum => some "enum" | .default => some "default"
  | .bitfield => some "bitfield" | .ltEq => some "<=" | .gtEq => some ">=" | .eq => some "=="
  | .ne => some "!=" | .question => some "?" | .colon => some ":" | .doubleColon => some "::"
  | .semicolon => some ";" | .plus => some "+" | .minus => some "-" | .mul => some "*"
  | .div => some "/" | .mod => some "%" | .not => some "!" | .leftParen => some "("
  | .rightParen => some ")" | .cast => some ":>" | .or => some "||" | .and => some "&&"
  | .bitOr => some "|" | .bitXor => some "^" | .bitAnd => some "&" | .shr => some ">>"
  | .shl => some "<<" | .shrSigned => some ">>>" | .bitNot => some "~" | .true => some "true"
  | .false => some "false"

/-- Spec: letters, digits and `_`, not starting with a digit. -/
def IsIdent (t : Text) : Prop := ∃ c cs, t = c :: cs ∧ isIdentStart c = true ∧ ∀ x ∈ cs, isIdentPart x = true

/-- Spec: a word with a meaning of its own. -/
def Reserved (s : String) : Prop := ∃ tok, fixedText tok = some s

/-- Spec: text between quotes and the bytes it denotes: `\` followed by two hex digits is that byte,
by one hex digit that number, by anything else that byte itself. -/
inductive StrBody : Text → Text → Prop
  | nil : StrBody [] []
  | plain {c t v} : c ≠ byte '"' → c ≠ byte '\\' → StrBody t v → StrBody (c :: t) (c :: v)
  | escape {c t v} : isHex c = false → StrBody t v → StrBody (byte '\\' :: c :: t) (c :: v)
  | hex1 {d t v} : isHex d = true → (∀ e t', t = e :: t' → isHex e = false) → StrBody t v →
      StrBody (byte '\\' :: d :: t) (hexVal d :: v)
  | hex2 {d e t v} : isHex d = true → isHex e = true → StrBody t v →
      StrBody (byte '\\' :: d :: e :: t) ((16 * hexVal d + hexVal e) :: v)

/-- Spec: the same, without saying which bytes are denoted. -/
def StrExtent (t _v : Text) : Prop := ∃ v', StrBody t v'

/-- Spec: `*/` occurs in the text. -/
def ClosesBlock (t : Text) : Prop := ∃ a b, t = a ++ byte '*' :: byte '/' :: b

/-- Spec: which texts spell a token. A line comment includes its newline if there is one. -/
inductive Lexeme (SB : Text → Text → Prop) : Token → Text → Prop
  | fixed {tok w} : fixedText tok = some w → Lexeme SB tok (ascii w)
  | ident {t} : IsIdent t → ¬ Reserved (ofAscii t) → Lexeme SB (.ident (ofAscii t)) t
  | dec {t} : t ≠ [] → (∀ x ∈ t, isDigit x = true) → Lexeme SB (.int (ofAscii t)) t
  | hex {t} : (∀ x ∈ t, isHex x = true) →
      Lexeme SB (.int (ofAscii (byte '0' :: byte 'x' :: t))) (byte '0' :: byte 'x' :: t)
  | string {t v} : SB t v → Lexeme SB (.string v) (byte '"' :: (t ++ [byte '"']))
  | line {t} : byte '\n' ∉ t → Lexeme SB (.commentLine t) (byte '/' :: byte '/' :: (t ++ [byte '\n']))
  | lineEnd {t} : byte '\n' ∉ t → Lexeme SB (.commentLine t) (byte '/' :: byte '/' :: t)
  | block {t} : ¬ ClosesBlock t →
      Lexeme SB (.commentBlock t) (byte '/' :: byte '*' :: (t ++ [byte '*', byte '/']))
  | blockEnd {t} : t ≠ [] → ¬ ClosesBlock t → Lexeme SB (.commentBlock t) (byte '/' :: byte '*' :: t)

/-- Spec: no longer beginning of the input spells a token. -/
def Longest (SB : Text → Text → Prop) (text inp : Text) : Prop :=
  ∀ tok text' rest, Lexeme SB tok text' → inp = text' ++ rest → text'.length ≤ text.length

/-- Spec: a token in the source, with the text before it and its own text. -/
structure Place where
  token : Token
  before : Text
  text : Text

/-- Spec: how a source text is cut into tokens (`Cuts SB before inp places`: `before` was already
cut, `inp` is what remains): skip whitespace, take the longest spelling of a token. A comment opened
by the last two bytes of the source is ignored. -/
inductive Cuts (SB : Text → Text → Prop) : Text → Text → List Place → Prop
  | nil {before} : Cuts SB before [] []
  | openComment {before} : Cuts SB before (ascii "/*") []
  | space {before c inp ps} : isSpace c = true → Cuts SB (before ++ [c]) inp ps → Cuts SB before (c :: inp) ps
  | tok {before tok text rest ps} : Lexeme SB tok text → Longest SB text (text ++ rest) →
      text ++ rest ≠ ascii "/*" → Cuts SB (before ++ text) rest ps →
      Cuts SB before (text ++ rest) (⟨tok, before, text⟩ :: ps)

/-- Spec: no backslash is directly followed by two hex digits. -/
def NoHexEscape (inp : Text) : Prop :=
  ∀ pre d e post, inp = pre ++ byte '\\' :: d :: e :: post → ¬ (isHex d = true ∧ isHex e = true)

/-- Spec: the line of the position after `before`, from 1. -/
def lineOf (before : Text) : Nat := 1 + before.count (byte '\n')

/-- Spec: the column of the position after `before`, from 1. -/
def colOf (before : Text) : Nat := 1 + (before.reverse.takeWhile (· != byte '\n')).length

/-- Spec: a span that gives the line and the columns of a token; the last column is exclusive. -/
structure ExactSpan (p : Place) (s : Span) : Prop where
  lineStart : s.lineStart = lineOf p.before
  lineStop : s.lineStop = lineOf (p.before ++ p.text)
  colStart : s.colStart = colOf p.before
  colStop : s.colStop = colOf p.before + p.text.length

/-- Spec: `b` starts where a token or whitespace of `a ++ b` ends. The end of the source is no such
place if a comment ends there, for the comment might go on. -/
inductive BoundaryAt : Text → Text → Prop
  | here {b} : BoundaryAt [] b
  | space {c a b} : isSpace c = true → BoundaryAt a b → BoundaryAt (c :: a) b
  | tok {tok text a b} : Lexeme StrExtent tok text → Longest StrExtent text (text ++ (a ++ b)) →
      text ++ (a ++ b) ≠ ascii "/*" → (a ++ b = [] → tok.isComment = false) → BoundaryAt a b →
      BoundaryAt (text ++ a) b

/-- Spec: whitespace and finished comments. -/
inductive Filler : Text → Prop
  | nil : Filler []
  | space {c f} : isSpace c = true → Filler f → Filler (c :: f)
  | line {t f} : byte '\n' ∉ t → Filler f → Filler (byte '/' :: byte '/' :: (t ++ byte '\n' :: f))
  | block {t f} : ¬ ClosesBlock t → Filler f → Filler (byte '/' :: byte '*' :: (t ++ byte '*' :: byte '/' :: f))

/-- Spec: the tokens of a source, without positions; `none` if it is rejected. -/
def tokensOf (inp : Text) (strip : Bool) : Option (List Token) :=
  match tokenize inp strip with
  | .ok toks => some (toks.map STok.token)
  | .error _ => none

/-- Spec: tokens that a source can contain and whose strings need no escapes. -/
def Printable : Token → Prop
  | .ident s => IsIdent (ascii s) ∧ ofAscii (ascii s) = s ∧ ¬ Reserved s
  | .int s => ofAscii (ascii s) = s ∧ (ascii s ≠ [] ∧ (∀ x ∈ ascii s, isDigit x = true) ∨
      ∃ ds, ascii s = byte '0' :: byte 'x' :: ds ∧ ∀ x ∈ ds, isHex x = true)
  | .string v => byte '"' ∉ v ∧ byte '\\' ∉ v
  | .commentLine t => byte '\n' ∉ t
  | .commentBlock t => ¬ ClosesBlock t
  | _ => True

/-- Spec: the tokens' texts separated by spaces. -/
def printAll (toks : List Token) : Text := toks.flatMap fun t => t.show ++ [byte ' ']

end Verif.Props
