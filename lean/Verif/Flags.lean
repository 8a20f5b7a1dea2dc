import Verif.Repr
/-!
# The functions of a generated bitfield type

`compiler/mod.rs` 606-731. `Repr.lean` has the representation, the getters and the setters; here are the constants and the operators, and the programs
that use them.
-/
namespace Verif

namespace BitfieldDecl

/-- `impl BitXor` (`compiler/mod.rs` 712-717): Rust `^` on the representation type. -/
def xor (d : BitfieldDecl) (a b : Int) : Int :=
  d.rep.scalar.ofPat (d.rep.scalar.toPat a ^^^ d.rep.scalar.toPat b)

/-- The constant of a flag (`compiler/mod.rs` 636-639). -/
def flag (d : BitfieldDecl) (n : String) : Option Int := (d.flags.find? fun p => p.1 == n).map (·.2)

end BitfieldDecl

/-- How a program gets a value of a generated bitfield type without touching its field: the public constants and functions of the type,
applied to each other in any way. The assigning operators (699-703, 706-710, 719-723) are `*self = *self op rhs`, so they are the operators. -/
inductive FlagProg
  | zero
  | all
  | dflt
  | flag (name : String)
  | decoded (raw : Int)
  | or (a b : FlagProg)
  | and (a b : FlagProg)
  | xor (a b : FlagProg)
  | set (a : FlagProg) (name : String)
  | not (a : FlagProg)

/-- The value, or `none` if a decoding fails or there is no such flag (which rustc would not accept). -/
def FlagProg.run (d : BitfieldDecl) : FlagProg → Option Int
  | .zero => some 0
  | .all => some d.all
  | .dflt => some 0
  | .flag n => d.flag n
  | .decoded raw => d.fromRepr raw
  | .or a b => do let x ← a.run d; let y ← b.run d; some (d.or x y)
  | .and a b => do let x ← a.run d; let y ← b.run d; some (d.and x y)
  | .xor a b => do let x ← a.run d; let y ← b.run d; some (d.xor x y)
  | .set a n => do let x ← a.run d; let f ← d.flag n; some (d.set x f)
  | .not a => do let x ← a.run d; some (d.compl x)

/-- Programs without `!`, on numbers of the representation type. -/
def FlagProg.Plain (d : BitfieldDecl) : FlagProg → Prop
  | .decoded raw => d.rep.scalar.InRange raw
  | .or a b => a.Plain d ∧ b.Plain d
  | .and a b => a.Plain d ∧ b.Plain d
  | .xor a b => a.Plain d ∧ b.Plain d
  | .set a _ => a.Plain d
  | .not _ => False
  | _ => True

/-- A variable of the type on which setters are called one after the other. -/
def setAll (d : BitfieldDecl) (x : Int) : List Int → Int
  | [] => x
  | f :: fs => setAll d (d.set x f) fs

end Verif
