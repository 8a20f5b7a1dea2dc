import Verif.RustTypes
/-!
# `Default::default()` of generated types

`#[derive(Default)]` on structs and bitfields, the written `impl Default` of enums and tagged enums (`compiler/mod.rs` 408-449, 534-546), and the `impl`s of
the standard library.
-/
namespace Verif

mutual
/-- The value `Default::default()` returns, for a type written in generated code. -/
inductive IsDefault (F : Sig) (sch : Schema) : RTy → Val → Prop
  | int {k} : IsDefault F sch (.int k) (.int ⟨k, 0⟩)
  | bool : IsDefault F sch .bool (.bool false)
  | flt {d} : IsDefault F sch (.flt d) (.flt d 0)
  | str : IsDefault F sch .str (.str "")
  | vec {t} : IsDefault F sch (.vec t) (.arr [])
  | opt {t} : IsDefault F sch (.opt t) (.opt none)
  /-- derived, 146-172 -/
  | newtype {n d cond ty v} : sch.find n = some d → d.body = .leaf cond ty → IsDefault F sch ((ty.rust F).optional cond.isSome) v →
      IsDefault F sch (.named n) (.newtype n v)
  /-- 534-546: `Self::first` -/
  | enm {n d m en i x rest} : sch.find n = some d → d.body = .repr (.enum m en) → en.items = (i, some x) :: rest →
      IsDefault F sch (.named n) (.enm n (.unit i) ⟨en.rep.scalar, x⟩)
  /-- derived, 649 -/
  | bits {n d m bf} : sch.find n = some d → d.body = .repr (.bitfield m bf) → IsDefault F sch (.named n) (.bits n ⟨bf.rep.scalar, 0⟩)
  /-- derived, 459-468 -/
  | struct {n d len items fs} : sch.find n = some d → d.body = .struct len items → AreDefaults F sch (rustFields F false items) fs →
      IsDefault F sch (.named n) (.struct n fs)
  /-- 408-449: `Self::first(Default::default())` -/
  | variant {n d len arm rest ty v} : sch.find n = some d → d.body = .tagged len (arm :: rest) → arm.body = .leaf ty → IsDefault F sch (ty.rust F) v →
      IsDefault F sch (.named n) (.variant n arm.attr.name v)
  /-- 408-449: `Self::first { a: Default::default(), .. }` -/
  | variantS {n d len arm rest alen items fs} : sch.find n = some d → d.body = .tagged len (arm :: rest) → arm.body = .cont alen items →
      AreDefaults F sch (rustFields F false items) fs → IsDefault F sch (.named n) (.variantS n arm.attr.name fs)

inductive AreDefaults (F : Sig) (sch : Schema) : List (String × RTy) → List (String × Val) → Prop
  | nil : AreDefaults F sch [] []
  | cons {n t v ts vs} : IsDefault F sch t v → AreDefaults F sch ts vs → AreDefaults F sch ((n, t) :: ts) ((n, v) :: vs)
end

/-- The same, computed; `fuel` bounds the nesting. -/
def defaultOf (F : Sig) (sch : Schema) : Nat → RTy → Option Val
  | 0, _ => none
  | fuel + 1, t =>
    let fields := fun (l : List (String × RTy)) => l.mapM fun p => (defaultOf F sch fuel p.2).map fun v => (p.1, v)
    match t with
    | .int k => some (.int ⟨k, 0⟩)
    | .bool => some (.bool false)
    | .flt d => some (.flt d 0)
    | .str => some (.str "")
    | .vec _ => some (.arr [])
    | .opt _ => some (.opt none)
    | .named n => match sch.find n with
      | none => none
      | some d => match d.body with
        | .leaf cond ty => (defaultOf F sch fuel ((ty.rust F).optional cond.isSome)).map (.newtype n)
        | .repr (.enum _ en) => match en.items with
          | (i, some x) :: _ => some (.enm n (.unit i) ⟨en.rep.scalar, x⟩)
          | _ => none
        | .repr (.bitfield _ bf) => some (.bits n ⟨bf.rep.scalar, 0⟩)
        | .struct _ items => (fields (rustFields F false items)).map (.struct n)
        | .tagged _ (arm :: _) => match arm.body with
          | .leaf ty => (defaultOf F sch fuel (ty.rust F)).map (.variant n arm.attr.name)
          | .cont _ items => (fields (rustFields F false items)).map (.variantS n arm.attr.name)
        | .tagged _ [] => none

end Verif
