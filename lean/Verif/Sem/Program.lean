import Verif.Sem.Convert
/-!
# Conversion of programs and imports, and the search for recursive types

Models `/repo/protospec-build/src/semantics/convert/program/` and `asg/program.rs`.
The cells of all modules live in one heap, because modules share `Arc<Field>`s through imports.
-/
namespace Verif.Sem
open Verif

/-- `program/ffi.rs` 6-14 and 96-106: `HashMap` order is that of the list; keys are distinct. -/
def addPrelude (fns : List (String × FnSig)) (p : Prog) : Prog :=
  { p with functions := fns.foldl (fun m x => IMap.insert m x.1 x.2) p.functions }

/-- What the resolver found, or an error. -/
def found {α} (x : R (Option α)) (e : AsgError) : R α :=
  x.bind fun o => match o with
    | some a => .ok a
    | none => .error (.asg e)

/-- `program/ffi.rs` 16-94. -/
def convFfi (env : Env) (name : String) : Ast.FfiKind → Prog → M Prog
  | .type, p => do
    let arguments ← liftR (found (env.ffiType name) (.ffiMissing name))
    check (IMap.get p.types name).isNone (.typeRedefinition name)
    let id ← alloc { blankField name true with arguments, type := .foreign name }
    pure { p with types := IMap.insert p.types name id }
  | .transform, p => do
    let params ← liftR (found (env.ffiTransform name) (.ffiMissing name))
    check (IMap.get p.transforms name).isNone (.transformRedefinition name)
    pure { p with transforms := IMap.insert p.transforms name params }
  | .function, p => do
    let sig ← liftR (found (env.ffiFunction name) (.ffiMissing name))
    check (IMap.get p.functions name).isNone (.functionRedefinition name)
    pure { p with functions := IMap.insert p.functions name sig }

/-- The name an import item is bound to (`program/import.rs` 16-20). -/
def importedName (i : Ast.ImportItem) : String := i.alias.getD i.name

/-- `program/import.rs` 15-37: the items of one import, in order. -/
def bindItems (module : String) (cached : Prog) : List Ast.ImportItem → Prog → R Prog
  | [], p => .ok p
  | i :: rest, p =>
    match IMap.get cached.types i.name with
    | some f => bindItems module cached rest
        { p with types := IMap.insert p.types (importedName i) f }
    | none => match IMap.get cached.consts i.name with
      | some c => bindItems module cached rest
          { p with consts := IMap.insert p.consts (importedName i) c }
      | none => match IMap.get cached.transforms i.name with
        | some t => bindItems module cached rest
            { p with transforms := IMap.insert p.transforms (importedName i) t }
        | none => .error (.asg (.importUnresolved i.name module))

/-- `program/import.rs` 6-42. -/
def convImport (env : Env) (mods : List (String × Prog)) (items : List Ast.ImportItem)
    (src : Text) (p : Prog) : M Prog := do
  let name ← liftR (env.normalize src)
  let cached ← lookup mods name .importMissing
  liftR (bindItems name cached items p)

/-- `program/const_.rs` 20-28: types a constant may have. -/
def constable : AType → Bool
  | .container .. | .enum .. | .bitfield .. => false
  | _ => true

/-- `program/const_.rs` 6-40. -/
def convConst (env : Env) (sc : Scope) (name : String) (type : Ast.Ty) (value : Ast.Expression)
    (p : Prog) : M Prog := do
  check (IMap.get p.consts name).isNone (.constRedefinition name)
  let type ← convTy env p sc type .constDefinition
  check (constable type) (.constTypeDefinition name)
  let expected ← withHeap fun h => toPartial h type
  let value ← convE env p sc value expected
  pure { p with consts := IMap.insert p.consts name (.mk name type value) }

/-- `program/field.rs` 6-36. -/
def declareType (name : String) (p : Prog) : M (FId × Prog) := do
  check (IMap.get p.types name).isNone (.typeRedefinition name)
  let id ← alloc (blankField name true)
  pure (id, { p with types := IMap.insert p.types name id })

/-- `convert/field.rs` 4-44 (`convert_ast_field_arguments`): the new scope. -/
def convArguments (env : Env) (p : Prog) (sc : Scope) (args : List Ast.TypeArg) (id : FId) :
    M Scope := do
  let (inputs, arguments) ← convTypeArgs env p sc args [] []
  update id fun f => { f with arguments }
  pure (⟨[], inputs⟩ :: sc)

/-- `convert/field.rs` 46-164 for a top-level type: `convert_ast_field_mid` and
`convert_ast_field_end` (`program/mod.rs` 81-82, 127-128). -/
def convBody (env : Env) (p : Prog) (sc : Scope) (name : String) (f : Ast.Field) (id : FId) :
    M Unit := do
  let _ ← convMid env p sc f (.typeDefinition name) id
  convEnd env p sc f id

/-- `program/mod.rs` 43-50: the pass over `import_ffi` declarations. -/
def passFfi (env : Env) : Ast.Program → Prog → M Prog
  | [], p => pure p
  | .ffi name kind :: rest, p => do passFfi env rest (← convFfi env name kind p)
  | _ :: rest, p => passFfi env rest p

/-- `program/mod.rs` 52-65: the pass over imports. -/
def passImports (env : Env) (mods : List (String × Prog)) : Ast.Program → Prog → M Prog
  | [], p => pure p
  | .import_ items src :: rest, p => do
    passImports env mods rest (← convImport env mods items src p)
  | _ :: rest, p => passImports env mods rest p

/-- `program/mod.rs` 71-75: whether a type is an enum or a bitfield. -/
def isRepType : Ast.Field → Bool
  | .mk (.enum ..) .. => true
  | .mk (.bitfield ..) .. => true
  | _ => false

/-- The scope of a module: nothing is declared in it (`program/mod.rs` 33-38). -/
def topScope : Scope := [⟨[], []⟩]

/-- `program/mod.rs` 67-90: the pass over enums, bitfields and constants. -/
def passConsts (env : Env) : Ast.Program → Prog → M Prog
  | [], p => pure p
  | .type name args f :: rest, p =>
    if isRepType f then do
      let (id, p) ← declareType name p
      let sc ← convArguments env p topScope args id
      convBody env p sc name f id
      passConsts env rest p
    else passConsts env rest p
  | .const name type value :: rest, p => do
    passConsts env rest (← convConst env topScope name type value p)
  | _ :: rest, p => passConsts env rest p

/-- `program/mod.rs` 92-107: the pass that declares the other types. -/
def passDeclare : Ast.Program → Prog → M (List FId × Prog)
  | [], p => pure ([], p)
  | .type name _ f :: rest, p =>
    if isRepType f then passDeclare rest p
    else do
      let (id, p) ← declareType name p
      let (ids, p) ← passDeclare rest p
      pure (id :: ids, p)
  | _ :: rest, p => passDeclare rest p

/-- `program/mod.rs` 109-117: the pass that converts the arguments of the other types. -/
def passArguments (env : Env) (p : Prog) : Ast.Program → List FId → M (List Scope)
  | .type _ args f :: rest, id :: ids =>
    if isRepType f then passArguments env p rest (id :: ids)
    else do
      let sc ← convArguments env p topScope args id
      pure (sc :: (← passArguments env p rest ids))
  | _ :: rest, ids => passArguments env p rest ids
  | [], _ => pure []

/-- `program/mod.rs` 119-129: the pass that converts the bodies of the other types. -/
def passBodies (env : Env) (p : Prog) : Ast.Program → List FId → List Scope → M Unit
  | .type name _ f :: rest, id :: ids, sc :: scs =>
    if isRepType f then passBodies env p rest (id :: ids) (sc :: scs)
    else do
      convBody env p sc name f id
      passBodies env p rest ids scs
  | _ :: rest, ids, scs => passBodies env p rest ids scs
  | [], _, _ => pure ()

/-! ## Recursive types -/

/-- Visit a field unless one of its name was visited (`asg/types/mod.rs` 178-188). -/
def visit (h : Heap) (follow : AField → List String → R (List String)) (f : FId)
    (seen : List String) : R (List String) :=
  (deref h f).bind fun x =>
    if x.name ∈ seen then .ok seen else follow x (seen ++ [x.name])

/-- The fields of a container in order. -/
def visitAll (h : Heap) (follow : AField → List String → R (List String)) :
    List (String × FId) → List String → R (List String)
  | [], seen => .ok seen
  | (_, f) :: rest, seen => (visit h follow f seen).bind fun s => visitAll h follow rest s

/-- `asg/types/mod.rs` 172-192 (`get_indirect_contained_fields`) with the recursion through
`asg/field.rs` 33-36 as a parameter. -/
def containedWith (h : Heap) (follow : AField → List String → R (List String)) :
    AType → List String → R (List String)
  | .array _ el _ _, seen => containedWith h follow el seen
  | .container _ _ items _, seen => visitAll h follow items seen
  | .ref f _, seen => visit h follow f seen
  | _, seen => .ok seen

/-- `asg/types/mod.rs` 172-192, entering at most `n` fields one inside the other. -/
def containedN (h : Heap) : Nat → AType → List String → R (List String)
  | 0 => containedWith h fun _ _ => .error .diverge
  | n + 1 => containedWith h fun x seen => containedN h n x.type seen

/-- `asg/field.rs` 33-36 on an empty set. The bound is never reached (`contained_total` in
`Props/Sem.lean`). -/
def contained (h : Heap) (x : AField) : R (List String) := containedN h h.length x.type []

/-- `asg/program.rs` 12-20: one type. -/
def scanOne (f : FId) (h : Heap) : R Heap :=
  (deref h f).bind fun x => (contained h x).bind fun names =>
    if x.name ∈ names then .ok (h.modify f fun x => { x with cyclical := true }) else .ok h

/-- `asg/program.rs` 12-20. -/
def scanCycles : List (String × FId) → Heap → R Heap
  | [], h => .ok h
  | (_, f) :: rest, h => (scanOne f h).bind fun h => scanCycles rest h

def scanM (p : Prog) : M Unit := fun s =>
  (scanCycles p.types s.heap).map fun h => ((), { s with heap := h })

/-- `program/mod.rs` 24-138 (`from_ast_imported`). -/
def fromAstImported (env : Env) (mods : List (String × Prog)) (ast : Ast.Program) : M Prog := do
  let p := addPrelude env.prelude ⟨[], [], [], []⟩
  let p ← passFfi env ast p
  let p ← passImports env mods ast p
  let p ← passConsts env ast p
  let (ids, p) ← passDeclare ast p
  let scopes ← passArguments env p ast ids
  passBodies env p ast ids scopes
  scanM p
  pure p

/-! ## Imports -/

/-- The modules converted so far, with a record of the calls of `resolve_import`. -/
structure Cache where
  mods : List (String × Prog)
  loads : List String

/-- `program/resolve.rs` 9-34: the imports of one module, `loadModule` loading one that is not
cached. -/
def loadDecls (env : Env) (loadModule : String → Cache → M Cache) :
    Ast.Program → Cache → M Cache
  | [], c => pure c
  | .import_ _ src :: rest, c => do
    let name ← liftR (env.normalize src)
    if (IMap.get c.mods name).isSome then loadDecls env loadModule rest c
    else do
      let c ← loadModule name c
      loadDecls env loadModule rest c
  | _ :: rest, c => loadDecls env loadModule rest c

/-- `program/resolve.rs` 14-29: load and convert one module; `imports` loads what it imports. -/
def loadModule (env : Env) (imports : Ast.Program → Cache → M Cache) (name : String) (c : Cache) :
    M Cache := do
  let parsed ← liftR (found (env.load name) .importMissing)
  let ast ← liftR (found (.ok parsed) .importParse)
  let c ← imports ast { c with loads := c.loads ++ [name] }
  let asg ← fromAstImported env c.mods ast
  pure { c with mods := IMap.insert c.mods name asg }

/-- `program/resolve.rs` 4-36 (`from_ast_imports`), entering at most `n` modules one inside the
other. -/
def loadImports (env : Env) : Nat → Ast.Program → Cache → M Cache
  | 0 => loadDecls env fun _ _ _ => .error .diverge
  | n + 1 => loadDecls env (loadModule env (loadImports env n))

/-- `program/mod.rs` 14-22 (`from_ast`), with imports nested at most `n` deep. -/
def fromAst (env : Env) (n : Nat) (ast : Ast.Program) : M (Prog × List String) := do
  let c ← loadImports env n ast ⟨[], []⟩
  let p ← fromAstImported env c.mods ast
  pure (p, c.loads)

/-- Conversion from nothing. -/
def convert (env : Env) (n : Nat) (ast : Ast.Program) : R (Prog × Heap × List String) :=
  ((fromAst env n ast).run ⟨[], 0⟩).map fun x => (x.1.1, x.2.heap, x.1.2)

end Verif.Sem
