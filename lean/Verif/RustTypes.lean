import Verif.EncodeSpec
/-!
# The Rust types the compiler declares

Models the type declarations of `/repo/protospec-build/src/compiler/mod.rs` 135-167 and 308-469: the
`struct`s and `enum`s that a specification turns into, and which values belong to them (`Belongs`).

Simplification: names are not qualified, there are no references or lifetimes; the endianness of an
integer is not part of its Rust type (`ScalarType::to_string`, `ast/types/scalar.rs`).
-/
namespace Verif

/-- A Rust type as it is written in generated declarations. -/
inductive RTy
  | int (k : Scalar)
  | bool
  | flt (double : Bool)
  | str
  | vec (t : RTy)
  | opt (t : RTy)
  | named (n : String)
  deriving DecidableEq, Repr

/-- What generated code knows about the outside: `ForeignType::type_ref` and `arguments`
(`ffi/type_.rs`), `ForeignTransform::arguments` (`ffi/transform.rs`), and the types of the parameters of
the declared types (`compiler/mod.rs` 204-212). -/
structure Sig where
  foreignTy : String → RTy
  foreignArgs : String → List RTy
  xformArgs : String → List RTy
  params : String → List RTy

/-- `compiler/mod.rs` 313, 321-323: the Rust type of a primitive. -/
def Prim.rust : Prim → RTy
  | .bool => .bool
  | .f32 => .flt false
  | .f64 => .flt true
  | .scalar s => .int s.scalar

/-- `compiler/mod.rs` 308-331 (`emit_type_ref`). -/
def LTy.rust (F : Sig) : LTy → RTy
  | .prim p => p.rust
  | .array el _ => .vec (el.rust F)
  | .ref n foreign _ _ => if foreign then F.foreignTy n else .named n

/-- `Option<#type_ref>`, or the type itself. -/
def RTy.optional (c : Bool) (t : RTy) : RTy := if c then .opt t else t

/-- `compiler/mod.rs` 333-370 (`generate_container_fields_recur`): the fields of a generated struct, in
order. A field is an `Option` if it, or a container around it, is conditional. -/
def rustFields (F : Sig) (conditional : Bool) : Fields → List (String × RTy)
  | .nil => []
  | .pad _ _ rest => rustFields F conditional rest
  | .leaf a ty rest =>
    (a.name, (ty.rust F).optional (conditional || a.cond.isSome)) :: rustFields F conditional rest
  | .cont a _ items rest =>
    rustFields F (conditional || a.cond.isSome) items ++ rustFields F conditional rest

/-- The name an enum or bitfield is declared under. -/
def ReprTy.name : ReprTy → String
  | .enum n _ => n
  | .bitfield n _ => n

/-- A number is one of its Rust type. Without `ranged` only the type itself is looked at. -/
def numOf (ranged : Bool) (k : Scalar) (n : Int) : Prop := ranged = true → k.InRange n

mutual
/-- Which values belong to a Rust type. The declarations of a specification are
* `struct Name(T)` for a type that is not a container (`compiler/mod.rs` 146-164),
* `enum Name { .. }` and `struct Name(u8)` for enums and bitfields (471-732),
* `struct Name { .. }` for containers (459-468),
* `enum Name { A(T), B { .. } }` for tagged enums (384-458). -/
inductive Belongs (F : Sig) (sch : Schema) (ranged : Bool) : RTy → Val → Prop
  | int {k n} : numOf ranged k n → Belongs F sch ranged (.int k) (.int ⟨k, n⟩)
  | bool {b} : Belongs F sch ranged .bool (.bool b)
  | flt {d n} : (ranged = true → n < 256 ^ (if d then 8 else 4)) → Belongs F sch ranged (.flt d) (.flt d n)
  | str {s} : Belongs F sch ranged .str (.str s)
  | vec {t vs} : (∀ v ∈ vs, Belongs F sch ranged t v) → Belongs F sch ranged (.vec t) (.arr vs)
  | none {t} : Belongs F sch ranged (.opt t) (.opt none)
  | some {t v} : Belongs F sch ranged t v → Belongs F sch ranged (.opt t) (.opt (some v))
  | newtype {n d cond ty v} : sch.find n = some d → d.body = .leaf cond ty →
      Belongs F sch ranged ((ty.rust F).optional cond.isSome) v → Belongs F sch ranged (.named n) (.newtype n v)
  | enm {n d en e x} : sch.find n = some d → d.body = .repr (.enum n en) → en.toRepr e = some x →
      numOf ranged en.rep.scalar x → Belongs F sch ranged (.named n) (.enm n e ⟨en.rep.scalar, x⟩)
  | bits {n d bf x} : sch.find n = some d → d.body = .repr (.bitfield n bf) →
      numOf ranged bf.rep.scalar x → Belongs F sch ranged (.named n) (.bits n ⟨bf.rep.scalar, x⟩)
  | struct {n d len items fs} : sch.find n = some d → d.body = .struct len items →
      HasFields F sch ranged (rustFields F false items) fs → Belongs F sch ranged (.named n) (.struct n fs)
  | variant {n d len arms arm ty v} : sch.find n = some d → d.body = .tagged len arms → arm ∈ arms →
      arm.body = .leaf ty → Belongs F sch ranged (ty.rust F) v →
      Belongs F sch ranged (.named n) (.variant n arm.attr.name v)
  | variantS {n d len arms arm alen items fs} : sch.find n = some d → d.body = .tagged len arms →
      arm ∈ arms → arm.body = .cont alen items → HasFields F sch ranged (rustFields F false items) fs →
      Belongs F sch ranged (.named n) (.variantS n arm.attr.name fs)

/-- The fields of a struct: the declared names in the declared order, each with its type. -/
inductive HasFields (F : Sig) (sch : Schema) (ranged : Bool) : List (String × RTy) → List (String × Val) → Prop
  | nil : HasFields F sch ranged [] []
  | cons {n t v ts vs} : Belongs F sch ranged t v → HasFields F sch ranged ts vs →
      HasFields F sch ranged ((n, t) :: ts) ((n, v) :: vs)
end

theorem HasFields.append {F sch r ts vs} (h : HasFields F sch r ts vs) {us ws}
    (h2 : HasFields F sch r us ws) : HasFields F sch r (ts ++ us) (vs ++ ws) := by
  induction ts generalizing vs with
  | nil => cases h; exact h2
  | cons p ts ih =>
    cases h with
    | cons hv ht => exact .cons hv (ih ht)

theorem HasFields.names {F sch r ts vs} (h : HasFields F sch r ts vs) :
    vs.map (·.1) = ts.map (·.1) := by
  induction ts generalizing vs with
  | nil => cases h; rfl
  | cons p ts ih =>
    cases h with
    | cons hv ht => simp [ih ht]

/-! ## Where the declared types and the decoders agree

Two things make the declared type and what the decoder builds differ; both are accepted by protospec and
rejected by rustc. `alignedTy` and `aligned` exclude them. -/

/-- The elements of an array are decoded as their own type, not as the type behind an alias
(`coder/decode/array.rs` 26-84 looks through aliases, `emit_type_ref` does not). -/
def alignedElem (sch : Schema) (el : LTy) : Bool :=
  match el.resolved with
  | .prim p => decide (el = .prim p)
  | .repr t =>
    match el with
    | .ref n false _ _ => decide ((sch.find n).map (·.body) = some (.repr t)) && decide (t.name = n)
    | _ => false
  | .other => true

def alignedTy (sch : Schema) : LTy → Bool
  | .array el len =>
    alignedTy sch el &&
    match len with
    | .term _ => true
    | _ => alignedElem sch el
  | _ => true

/-- No condition on any field. -/
def unconditional : Fields → Bool
  | .nil => true
  | .pad _ _ rest => unconditional rest
  | .leaf a _ rest => a.cond.isNone && unconditional rest
  | .cont a _ items rest => a.cond.isNone && unconditional items && unconditional rest

/-- Conditions are not nested: the decoder would wrap the value twice (`coder/decode/field.rs` 36-80), the
declared type only once. -/
def alignedItems (sch : Schema) : Fields → Bool
  | .nil => true
  | .pad _ _ rest => alignedItems sch rest
  | .leaf _ ty rest => alignedTy sch ty && alignedItems sch rest
  | .cont a _ items rest =>
    (a.cond.isNone || unconditional items) && alignedItems sch items && alignedItems sch rest

def alignedArm (sch : Schema) (arm : Arm) : Bool :=
  match arm.body with
  | .leaf ty => alignedTy sch ty
  | .cont _ items => alignedItems sch items

/-- An enum or bitfield has the name of its declaration, and variants have different names. -/
def alignedRepr (d : Decl) (t : ReprTy) : Bool :=
  decide (t.name = d.name) &&
  match t with
  | .enum _ en => decide (en.items.map Prod.fst).Nodup
  | .bitfield _ _ => true

def alignedDecl (sch : Schema) (d : Decl) : Bool :=
  match d.body with
  | .leaf _ ty => alignedTy sch ty
  | .repr t => alignedRepr d t
  | .struct _ items => alignedItems sch items
  | .tagged _ arms => arms.all (alignedArm sch)

def alignedSchema (sch : Schema) : Bool := sch.all (alignedDecl sch)

mutual
/-- Range checks can be dropped. -/
theorem Belongs.unranged {F : Sig} {sch : Schema} {t : RTy} {v : Val} (h : Belongs F sch true t v) :
    Belongs F sch false t v := by
  cases h with
  | int h => exact .int fun h => by cases h
  | bool => exact .bool
  | flt h => exact .flt fun h => by cases h
  | str => exact .str
  | vec h => exact .vec fun v hv => (h v hv).unranged
  | none => exact .none
  | some h => exact .some h.unranged
  | newtype h1 h2 h3 => exact .newtype h1 h2 h3.unranged
  | enm h1 h2 h3 h4 => exact .enm h1 h2 h3 fun h => by cases h
  | bits h1 h2 h3 => exact .bits h1 h2 fun h => by cases h
  | struct h1 h2 h3 => exact .struct h1 h2 h3.unranged
  | variant h1 h2 h3 h4 h5 => exact .variant h1 h2 h3 h4 h5.unranged
  | variantS h1 h2 h3 h4 h5 => exact .variantS h1 h2 h3 h4 h5.unranged
termination_by sizeOf v
decreasing_by all_goals (subst_vars; first | (have := List.sizeOf_lt_of_mem hv; simp; omega) | (simp; try omega))
theorem HasFields.unranged {F : Sig} {sch : Schema} {ts : List (String × RTy)} {vs : List (String × Val)}
    (h : HasFields F sch true ts vs) : HasFields F sch false ts vs := by
  cases h with
  | nil => exact .nil
  | cons h1 h2 => exact .cons h1.unranged h2.unranged
termination_by sizeOf vs
decreasing_by all_goals (subst_vars; simp; try omega)
end

end Verif
