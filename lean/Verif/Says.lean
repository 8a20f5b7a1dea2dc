import Verif.Ast
import Verif.Schema
/-!
# What a source text says about the code generated for it

Specification for C58: relations between the syntax tree of a declaration and the declaration the code
generators work from. There is no graph and no conversion here: only the texts of the modules.
-/
namespace Verif
open Verif

/-- The text of the module that an import names, if it exists and parses. -/
abbrev Modules := Text → Option Ast.Program

/-- The name an imported item gets. -/
def boundName (i : Ast.ImportItem) : String := i.alias.getD i.name

/-- Where a type that a module calls `n` is declared: in the module itself, as a foreign type of it, or in the
module it is imported from, and so on. -/
inductive TypeOrigin (ms : Modules) : Ast.Program → String → Ast.Program → Ast.Decl → Prop
  | here {text n args f} : .type n args f ∈ text → TypeOrigin ms text n text (.type n args f)
  | ffi {text n} : (∀ args f, .type n args f ∉ text) → .ffi n .type ∈ text →
      TypeOrigin ms text n text (.ffi n .type)
  | imported {text n items src i text' home d} : (∀ args f, .type n args f ∉ text) → .import_ items src ∈ text →
      i ∈ items → boundName i = n → ms src = some text' → TypeOrigin ms text' i.name home d →
      TypeOrigin ms text n home d

/-- Where a constant that a module calls `n` is declared. -/
inductive ConstOrigin (ms : Modules) : Ast.Program → String → Ast.Program → String → Ast.Ty → Ast.Expression → Prop
  | here {text n ty v} : .const n ty v ∈ text → ConstOrigin ms text n text n ty v
  | imported {text n items src i text' home m ty v} : (∀ ty v, .const n ty v ∉ text) → .import_ items src ∈ text →
      i ∈ items → boundName i = n → ms src = some text' → ConstOrigin ms text' i.name home m ty v →
      ConstOrigin ms text n home m ty v

/-- The names that mean something at a place of a declaration, with their types: the fields before it, and the
parameters. The nearest come first. -/
structure InView where
  fields : List (String × Ast.Ty)
  params : List (String × Ast.Ty)

/-- The type of the nearest thing of that name. -/
def nearest (n : String) : List (String × Ast.Ty) → Option Ast.Ty
  | [] => none
  | (m, ty) :: rest => if m = n then some ty else nearest n rest

/-- One more field. -/
def InView.and (V : InView) (n : String) (ty : Ast.Ty) : InView := { V with fields := (n, ty) :: V.fields }

/-- Some more fields. -/
def InView.with (V : InView) (ns : List (String × Ast.Ty)) : InView := { V with fields := ns ++ V.fields }

/-- Outside of all declarations nothing is in view. -/
def InView.top : InView := ⟨[], []⟩

/-- At the beginning of a declaration its parameters are in view; of two of one name the later one counts. -/
def InView.start (params : List Ast.TypeArg) : InView := ⟨[], (params.map fun a => (a.name, a.type)).reverse⟩

/-- A type with the module it is written in; none if it is not known from the texts alone. -/
abbrev Written := Option (Ast.Program × Ast.Ty)

/-- What is found behind a type. -/
inductive Found
  /-- The type itself, which is not a name. -/
  | itself (ty : Ast.Ty)
  /-- A type that is not a name, declared in that module with those parameters. -/
  | declared (home : Ast.Program) (params : List Ast.TypeArg) (ty : Ast.Ty)
  | foreign

/-- What is found behind a type by following names. -/
inductive Finds (ms : Modules) : Ast.Program → Ast.Ty → Found → Prop
  | itself {text ty} : (∀ n args, ty ≠ .ref n args) → Finds ms text ty (.itself ty)
  | declared {text n args home m params ty flags cal cond xs} :
      TypeOrigin ms text n home (.type m params (.mk ty flags cal cond xs)) → (∀ n args, ty ≠ .ref n args) →
      Finds ms text (.ref n args) (.declared home params ty)
  | alias {text n args home m params n' args' flags cal cond xs r} :
      TypeOrigin ms text n home (.type m params (.mk (.ref n' args') flags cal cond xs)) →
      Finds ms home (.ref n' args') r → Finds ms text (.ref n args) r
  | foreign {text n args home m} : TypeOrigin ms text n home (.ffi m .type) → Finds ms text (.ref n args) .foreign

/-- How values of a type that is not a name are converted. -/
def sourceOf : Ast.Ty → CastSrc
  | .enum _ _ => .enum_
  | .bitfield _ _ => .bitfield
  | _ => .plain

/-- The size of the values of a type that is not a name, if they all have one. -/
def fixedSize : Ast.Ty → Option Nat
  | .enum rep _ => some rep.scalar.size
  | .bitfield rep _ => some rep.scalar.size
  | .scalar s => some s.scalar.size
  | .f32 => some 4
  | .f64 => some 8
  | .bool => some 1
  | _ => none

def Found.source : Found → CastSrc
  | .itself ty => sourceOf ty
  | .declared _ _ ty => sourceOf ty
  | .foreign => .plain

def Found.size : Found → Option Nat
  | .itself ty => fixedSize ty
  | .declared _ _ ty => fixedSize ty
  | .foreign => none

/-- How values of a type are converted. -/
inductive Source (ms : Modules) : Written → CastSrc → Prop
  | unknown {src} : Source ms none src
  | known {text ty r} : Finds ms text ty r → Source ms (some (text, ty)) r.source

/-- The size of the values of a type, if they all have one. -/
inductive Size (ms : Modules) : Written → Option Nat → Prop
  | unknown {size} : Size ms none size
  | known {text ty r} : Finds ms text ty r → Size ms (some (text, ty)) r.size

/-- The operators that give a truth value. -/
def truthOp : BinOp → Bool
  | .lt | .gt | .lte | .gte | .eq | .ne | .or | .and => true
  | _ => false

/-- The type of what a binary operator gives: a truth value, or that of the left operand. -/
def joined (op : BinOp) (text : Ast.Program) (left : Written) : Written :=
  if truthOp op then some (text, .bool) else left

/-- The type of the elements. -/
def elementOf : Written → Written
  | some (home, .array el _ _) => some (home, el)
  | _ => none

/-- The type of what the functions of the prelude return. -/
def returned : String → Scalar
  | "bits" => .u8
  | _ => .u64

/-- What a cast converts to. -/
def targetOf : Ast.Ty → CastTy
  | .scalar s => .scalar s.scalar
  | _ => .other

/-- Where the value of a variant or flag comes from: an expression of its own, or the last one before it that has
one, with the number of items since. -/
inductive ValueSrc
  | own (s : Ast.Expression)
  | after (m : String) (s : Ast.Expression) (k : Nat)

/-- The value of the variant `v`, given the last explicit one and the number of variants since. -/
def enumValue : Option (String × Ast.Expression) → Nat → List Ast.EnumItem → String → Option ValueSrc
  | _, _, [], _ => none
  | last, k, .mk _ .default :: rest, v => enumValue last (k + 1) rest v
  | _, _, .mk n (.expr s) :: rest, v => if n = v then some (.own s) else enumValue (some (n, s)) 1 rest v
  | last, k, .mk n .none :: rest, v =>
    if n = v then last.map fun l => .after l.1 l.2 k else enumValue last (k + 1) rest v

/-- The value of the flag `v` likewise. -/
def flagValue : Option (String × Ast.Expression) → Nat → List Ast.BitItem → String → Option ValueSrc
  | _, _, [], _ => none
  | _, _, .mk n (some s) :: rest, v => if n = v then some (.own s) else flagValue (some (n, s)) 1 rest v
  | last, k, .mk n none :: rest, v =>
    if n = v then last.map fun l => .after l.1 l.2 k else flagValue last (k + 1) rest v

mutual
/-- An expression and its type, up to a conversion of its value that the source does not write. -/
inductive SaysE (ms : Modules) : Ast.Program → InView → Ast.Expression → Expr → Written → Prop
  | exact {text V s e τ} : SaysC ms text V s e τ → SaysE ms text V s e τ
  | widened {text V s e src k en τ} : SaysC ms text V s e τ → Source ms τ src →
      SaysE ms text V s (.cast src e (.scalar k)) (some (text, .scalar ⟨k, en⟩))
  | represented {text V s e src τ} : SaysC ms text V s e τ → Source ms τ src →
      SaysE ms text V s (.cast src e .other) none
/-- An expression and its type. A name is the field of that name if there is one in view, else the parameter, else
the constant. -/
inductive SaysC (ms : Modules) : Ast.Program → InView → Ast.Expression → Expr → Written → Prop
  | binary {text V op l r l' r' τ σ} : SaysE ms text V l l' τ → SaysE ms text V r r' σ →
      SaysC ms text V (.binary op l r) (.binary op l' r') (joined op text τ)
  | unary {text V op x x' τ} : SaysE ms text V x x' τ → SaysC ms text V (.unary op x) (.unary op x') τ
  | cast {text V x ty src x' τ} : SaysE ms text V x x' τ → Source ms τ src →
      SaysC ms text V (.cast x ty) (.cast src x' (targetOf ty)) (some (text, ty))
  | index {text V a i a' i' τ σ} : SaysE ms text V a a' τ → SaysE ms text V i i' σ →
      SaysC ms text V (.index a i) (.index a' i') (elementOf τ)
  | variant {text V n v home m params rep items flags cal cond xs src val} :
      TypeOrigin ms text n home (.type m params (.mk (.enum rep items) flags cal cond xs)) →
      enumValue none 0 items v = some src → SaysValue ms home (.start params) .add rep src val →
      SaysC ms text V (.enumAccess n v) (.enumAccess m v val) (some (home, .enum rep items))
  | flag {text V n v home m params rep items flags cal cond xs src val} :
      TypeOrigin ms text n home (.type m params (.mk (.bitfield rep items) flags cal cond xs)) →
      flagValue none 0 items v = some src → SaysValue ms home (.start params) .shl rep src val →
      SaysC ms text V (.enumAccess n v) (.enumAccess m v val) (some (home, .bitfield rep items))
  | int {text V value type k v} : (∀ t, type = some t → k = t) → CInt.parse k value.toList = some v →
      SaysC ms text V (.int value type) (.int v) (some (text, .scalar k.toE))
  | field {text V n ty} : nearest n V.fields = some ty →
      SaysC ms text V (.ref n) (.fieldRef n) (some (text, ty))
  | param {text V n ty} : nearest n V.fields = none → nearest n V.params = some ty →
      SaysC ms text V (.ref n) (.inputRef n) (some (text, ty))
  | const {text V n home m ty v e τ} : nearest n V.fields = none → nearest n V.params = none →
      ConstOrigin ms text n home m ty v → SaysE ms home .top v e τ →
      SaysC ms text V (.ref n) (.constRef m e) (some (home, ty))
  | str {text V c} : SaysC ms text V (.str c) (.str c) (some (text, .array (.scalar Scalar.u8.toE) true none))
  | ternary {text V c t f c' t' f' τ σ ρ} : SaysE ms text V c c' τ → SaysE ms text V t t' σ → SaysE ms text V f f' ρ →
      SaysC ms text V (.ternary c t f) (.ternary c' t' f') σ
  | bool {text V b} : SaysC ms text V (.bool b) (.bool b) (some (text, .bool))
  | len {text V a a' size τ} : SaysE ms text V a a' τ → Size ms τ size →
      SaysC ms text V (.call "len" [a]) (.len size a') (some (text, .scalar (returned "len").toE))
  | blen {text V n ty} : nearest n V.fields = some ty →
      SaysC ms text V (.call "blen" [.ref n]) (.blen n) (some (text, .scalar (returned "blen").toE))
  | sum {text V a a' τ} : SaysE ms text V a a' τ →
      SaysC ms text V (.call "sum" [a]) (.sum a') (some (text, .scalar (returned "sum").toE))
  | bits {text V a a' τ} : SaysE ms text V a a' τ →
      SaysC ms text V (.call "bits" [a]) (.bits a') (some (text, .scalar (returned "bits").toE))
  | pad {text V a b a' b' τ σ} : SaysE ms text V a a' τ → SaysE ms text V b b' σ →
      SaysC ms text V (.call "pad" [a, b]) (.pad a' b') (some (text, .scalar (returned "pad").toE))
  | member {text V x m x' val text' ty home params rep items src} : SaysE ms text V x x' (some (text', ty)) →
      Finds ms text' ty (.declared home params (.bitfield rep items)) → flagValue none 0 items m = some src →
      SaysValue ms home (.start params) .shl rep src val →
      SaysC ms text V (.member x m) (.member x' m val) (some (text, .bool))
  | memberInside {text V x m x' val text' rep items} : SaysE ms text V x x' (some (text', .bitfield rep items)) →
      m ∈ items.map (fun | .mk n _ => n) →
      SaysC ms text V (.member x m) (.member x' m val) (some (text, .bool))
  | memberUnknown {text V x m x' val} : SaysE ms text V x x' none →
      SaysC ms text V (.member x m) (.member x' m val) (some (text, .bool))
/-- The value of a variant or flag. -/
inductive SaysValue (ms : Modules) : Ast.Program → InView → BinOp → EScalar → ValueSrc → Expr → Prop
  | own {text V op rep s e τ} : SaysE ms text V s e τ → SaysValue ms text V op rep (.own s) e
  | after {text V op rep m s e τ} {k : Nat} : SaysE ms text V s e τ →
      SaysValue ms text V op rep (.after m s k) (.binary op (.constRef m e) (.int ⟨rep.scalar, k⟩))
end

/-- Expressions, one by one. -/
inductive SaysEs (ms : Modules) (text : Ast.Program) (V : InView) : List Ast.Expression → List Expr → Prop
  | nil : SaysEs ms text V [] []
  | cons {s e ss es τ} : SaysE ms text V s e τ → SaysEs ms text V ss es → SaysEs ms text V (s :: ss) (e :: es)

/-- An optional expression. -/
inductive SaysOpt (ms : Modules) (text : Ast.Program) (V : InView) : Option Ast.Expression → Option Expr → Prop
  | none : SaysOpt ms text V none none
  | some {s e τ} : SaysE ms text V s e τ → SaysOpt ms text V (some s) (some e)

/-- The variants of an enum in order, given the last explicit one with its expression and the number of variants
since: an explicit value is that of its expression; without one it is the last explicit value plus the
number of variants since. -/
inductive SaysVariants (ms : Modules) (oc : Bool) (text : Ast.Program) (V : InView) (rep : EScalar) :
    Option (String × Expr) → Nat → List Ast.EnumItem → List (String × Option Int) → Prop
  | nil {last k} : SaysVariants ms oc text V rep last k [] []
  | default {last k n rest vs} : SaysVariants ms oc text V rep last (k + 1) rest vs →
      SaysVariants ms oc text V rep last k (.mk n .default :: rest) ((n, none) :: vs)
  | value {last k n s e i rest vs τ} : SaysE ms text V s e τ → constEval oc e = .ok (.int i) →
      SaysVariants ms oc text V rep (some (n, e)) 1 rest vs →
      SaysVariants ms oc text V rep last k (.mk n (.expr s) :: rest) ((n, some i.val) :: vs)
  | implicit {m e n i rest vs} {k : Nat} :
      constEval oc (.binary .add (.constRef m e) (.int ⟨rep.scalar, k⟩)) = .ok (.int i) →
      SaysVariants ms oc text V rep (some (m, e)) (k + 1) rest vs →
      SaysVariants ms oc text V rep (some (m, e)) k (.mk n .none :: rest) ((n, some i.val) :: vs)

/-- The flags of a bitfield likewise; without a value a flag is the last explicit one shifted left by the number of
flags since. -/
inductive SaysFlags (ms : Modules) (oc : Bool) (text : Ast.Program) (V : InView) (rep : EScalar) :
    Option (String × Expr) → Nat → List Ast.BitItem → List (String × Int) → Prop
  | nil {last k} : SaysFlags ms oc text V rep last k [] []
  | value {last k n s e i rest vs τ} : SaysE ms text V s e τ → constEval oc e = .ok (.int i) →
      SaysFlags ms oc text V rep (some (n, e)) 1 rest vs →
      SaysFlags ms oc text V rep last k (.mk n (some s) :: rest) ((n, i.val) :: vs)
  | implicit {m e n i rest vs} {k : Nat} :
      constEval oc (.binary .shl (.constRef m e) (.int ⟨rep.scalar, k⟩)) = .ok (.int i) →
      SaysFlags ms oc text V rep (some (m, e)) (k + 1) rest vs →
      SaysFlags ms oc text V rep (some (m, e)) k (.mk n none :: rest) ((n, i.val) :: vs)

/-- The enum or bitfield that a declaration of `n` declares. -/
inductive SaysRepr (ms : Modules) (oc : Bool) (text : Ast.Program) (n : String) (V : InView) : Ast.Ty → ReprTy → Prop
  | enum {rep items vs} : SaysVariants ms oc text V rep none 0 items vs →
      SaysRepr ms oc text n V (.enum rep items) (.enum n ⟨rep, vs⟩)
  | bitfield {rep items vs} : SaysFlags ms oc text V rep none 0 items vs →
      SaysRepr ms oc text n V (.bitfield rep items) (.bitfield n ⟨rep, vs⟩)

/-- The primitive types. -/
def primOf : Ast.Ty → Option Prim
  | .scalar s => some (.scalar s)
  | .f32 => some .f32
  | .f64 => some .f64
  | .bool => some .bool
  | _ => none

/-- What is behind a type, looking through the declarations of names: a primitive type, an enum or bitfield, or
something else. -/
inductive Behind (ms : Modules) (oc : Bool) : Ast.Program → Ast.Ty → Resolved → Prop
  | prim {text ty p} : primOf ty = some p → Behind ms oc text ty (.prim p)
  | array {text el x len} : Behind ms oc text (.array el x len) .other
  | container {text len flags items} : Behind ms oc text (.container len flags items) .other
  | foreign {text n args home m} : TypeOrigin ms text n home (.ffi m .type) → Behind ms oc text (.ref n args) .other
  | repr {text n args home m params ty flags cal cond xs t} :
      TypeOrigin ms text n home (.type m params (.mk ty flags cal cond xs)) →
      SaysRepr ms oc home m (.start params) ty t → Behind ms oc text (.ref n args) (.repr t)
  | alias {text n args home m params ty flags cal cond xs r} :
      TypeOrigin ms text n home (.type m params (.mk ty flags cal cond xs)) →
      Behind ms oc home ty r → Behind ms oc text (.ref n args) r

/-- The type of a field that is not a container. A reference goes to the declaration of the name, wherever that
is, and knows what is behind it. -/
inductive SaysTy (ms : Modules) (oc : Bool) (text : Ast.Program) (V : InView) : Ast.Ty → LTy → Prop
  | prim {ty p} : primOf ty = some p → SaysTy ms oc text V ty (.prim p)
  | fixed {el len el' len' τ} : SaysTy ms oc text V el el' → SaysE ms text V len len' τ →
      SaysTy ms oc text V (.array el false (some len)) (.array el' (.fixed len'))
  | terminated {el len el' len' τ} : SaysTy ms oc text V el el' → SaysE ms text V len len' τ →
      SaysTy ms oc text V (.array el true (some len)) (.array el' (.term len'))
  | unbounded {el el'} : SaysTy ms oc text V el el' →
      SaysTy ms oc text V (.array el true none) (.array el' .unbounded)
  | ref {n args args' res home m params f} : TypeOrigin ms text n home (.type m params f) →
      SaysEs ms text V args args' → Behind ms oc text (.ref n args) res →
      SaysTy ms oc text V (.ref n args) (.ref m false res args')
  | foreign {n args args' home m} : TypeOrigin ms text n home (.ffi m .type) →
      SaysEs ms text V args args' → SaysTy ms oc text V (.ref n args) (.ref m true .other args')

/-- Transforms, in order. -/
inductive SaysXforms (ms : Modules) (text : Ast.Program) (V : InView) : List Ast.Transform → List XformUse → Prop
  | nil : SaysXforms ms text V [] []
  | cons {n args cond args' cond' rest rest'} : SaysEs ms text V args args' → SaysOpt ms text V cond cond' →
      SaysXforms ms text V rest rest' →
      SaysXforms ms text V (.mk n args cond :: rest) (⟨n, cond', args'⟩ :: rest')

/-- The fields of a container with their types. -/
def ownFields : List Ast.Item → List (String × Ast.Ty)
  | [] => []
  | .field n (.mk ty _ _ _ _) :: rest => (n, ty) :: ownFields rest
  | .pad _ :: rest => ownFields rest

/-- The items of a container, in order. `V` is what is in view of the next item, `A` what is in view of calculated
values: all fields of the container. `k` paddings came before. -/
inductive SaysItems (ms : Modules) (oc : Bool) (text : Ast.Program) :
    InView → InView → Nat → List Ast.Item → Fields → Prop
  | nil {V A k} : SaysItems ms oc text V A k [] .nil
  | pad {V A k s e rest rest' τ} : SaysE ms text V s e τ → SaysItems ms oc text V A (k + 1) rest rest' →
      SaysItems ms oc text V A k (.pad s :: rest) (.pad ("_pad" ++ toString k) e rest')
  | leaf {V A k n ty cal cond xs ty' cal' cond' xs' rest rest'} : SaysTy ms oc text V ty ty' →
      SaysOpt ms text V cond cond' → SaysXforms ms text V xs xs' → SaysOpt ms text A cal cal' →
      SaysItems ms oc text (V.and n ty) A k rest rest' →
      SaysItems ms oc text V A k (.field n (.mk ty [] cal cond xs) :: rest) (.leaf ⟨n, cond', xs', cal'⟩ ty' rest')
  | cont {V A k n len flags items cond xs len' items' cond' xs' rest rest'} : "tagged_enum" ∉ flags →
      SaysOpt ms text V len len' → SaysItems ms oc text V (V.with (ownFields items)) 0 items items' →
      SaysOpt ms text V cond cond' → SaysXforms ms text V xs xs' →
      SaysItems ms oc text (V.and n (.container len flags items)) A k rest rest' →
      SaysItems ms oc text V A k (.field n (.mk (.container len flags items) [] none cond xs) :: rest)
        (.cont ⟨n, cond', xs', none⟩ len' items' rest')

/-- The alternatives of a tagged enum, in order. -/
inductive SaysArms (ms : Modules) (oc : Bool) (text : Ast.Program) : InView → List Ast.Item → List Arm → Prop
  | nil {V} : SaysArms ms oc text V [] []
  | leaf {V n ty cond xs ty' cond' xs' rest rest'} : SaysTy ms oc text V ty ty' →
      SaysOpt ms text V cond cond' → SaysXforms ms text V xs xs' →
      SaysArms ms oc text (V.and n ty) rest rest' →
      SaysArms ms oc text V (.field n (.mk ty [] none cond xs) :: rest) (⟨⟨n, cond', xs', none⟩, .leaf ty'⟩ :: rest')
  | cont {V n len flags items cond xs len' items' cond' xs' rest rest'} : "tagged_enum" ∉ flags →
      SaysOpt ms text V len len' → SaysItems ms oc text V (V.with (ownFields items)) 0 items items' →
      SaysOpt ms text V cond cond' → SaysXforms ms text V xs xs' →
      SaysArms ms oc text (V.and n (.container len flags items)) rest rest' →
      SaysArms ms oc text V (.field n (.mk (.container len flags items) [] none cond xs) :: rest)
        (⟨⟨n, cond', xs', none⟩, .cont len' items'⟩ :: rest')

/-- The right-hand side of a declaration of `n`. -/
inductive SaysBody (ms : Modules) (oc : Bool) (text : Ast.Program) (n : String) (V : InView) :
    Ast.Ty → Option Ast.Expression → Body → Prop
  | leaf {ty cond ty' cond'} : SaysTy ms oc text V ty ty' → SaysOpt ms text V cond cond' →
      SaysBody ms oc text n V ty cond (.leaf cond' ty')
  | repr {ty t} : SaysRepr ms oc text n V ty t → SaysBody ms oc text n V ty none (.repr t)
  | struct {len flags items len' items'} : "tagged_enum" ∉ flags → SaysOpt ms text V len len' →
      SaysItems ms oc text V (V.with (ownFields items)) 0 items items' →
      SaysBody ms oc text n V (.container len flags items) none (.struct len' items')
  | tagged {len flags items len' arms} : "tagged_enum" ∈ flags → SaysOpt ms text V len len' →
      SaysArms ms oc text V items arms → SaysBody ms oc text n V (.container len flags items) none (.tagged len' arms)

/-- A declaration. -/
inductive SaysDecl (ms : Modules) (oc : Bool) (text : Ast.Program) : Ast.Decl → Decl → Prop
  | mk {n params ty cond xs xs' body} : (∀ a ∈ params, a.default = none) →
      SaysXforms ms text (.start params) xs xs' →
      SaysBody ms oc text n (.start params) ty cond body →
      SaysDecl ms oc text (.type n params (.mk ty [] none cond xs)) ⟨n, params.map (·.name), xs', body⟩

end Verif
