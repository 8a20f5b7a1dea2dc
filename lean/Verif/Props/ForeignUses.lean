import Verif.Props.Casts
import Verif.Sem.PreludeEnv
/-!
# C37, C38: which types can stand for the types of the prelude

The table of `Casts.lean` for the foreign types that come with protospec (`prelude/var.rs`, `prelude/utf8.rs`, `prelude/utf16.rs`, `prelude/resolver.rs`).
-/
namespace Verif.Props
open Verif Verif.Sem

/-- Spec: the variable-length integers and the integers that they are read into. -/
def varints : List (String × Scalar) := [("v8", .i8), ("v16", .i16), ("v32", .i32), ("v64", .i64), ("v128", .i128)]

/-- Spec: the strings and the integers of which their array counterparts consist. -/
def strings : List (String × Scalar) := [("utf8", .u8), ("utf16", .u16)]

theorem varints_kind {n : String} {k : Scalar} (hn : (n, k) ∈ varints) : varKind n = some k := by
  simp only [varints, List.mem_cons, Prod.mk.injEq, List.not_mem_nil, or_false] at hn
  rcases hn with ⟨rfl, rfl⟩ | ⟨rfl, rfl⟩ | ⟨rfl, rfl⟩ | ⟨rfl, rfl⟩ | ⟨rfl, rfl⟩ <;> rfl

theorem varKind_mem {n : String} {k : Scalar} (hn : varKind n = some k) : (n, k) ∈ varints := by
  unfold varKind at hn
  split at hn <;> first | (cases hn; simp [varints]) | cases hn

theorem strings_kind {n : String} {k : Scalar} (hn : (n, k) ∈ strings) : varKind n = none ∧ textKind n = k := by
  simp only [strings, List.mem_cons, Prod.mk.injEq, List.not_mem_nil, or_false] at hn
  rcases hn with ⟨rfl, rfl⟩ | ⟨rfl, rfl⟩ <;> exact ⟨rfl, rfl⟩

variable {ms : List (String × Ast.Program)} {h : Heap}

theorem scalarFrom_iff {k : Scalar} {t r : AType} (hr : resolve h t = .ok r) :
    scalarFrom k h t = .ok true ↔ r = .scalar ⟨k, .big⟩ ∨ ∃ f, r = .foreign f ∧ (f, k) ∈ varints := by
  unfold scalarFrom
  rw [hr]
  simp only [Except.bind]
  constructor
  · intro hc
    split at hc
    · simp only [Except.ok.injEq, beq_iff_eq] at hc
      subst hc
      exact .inl rfl
    · simp only [Except.ok.injEq, beq_iff_eq] at hc
      exact .inr ⟨_, rfl, varKind_mem hc⟩
    · cases hc
  · rintro (rfl | ⟨f, rfl, hf⟩)
    · simp [Scalar.toE]
    · simp [varints_kind hf]

/-- **C38.** A value may be stored in a variable-length integer if it is an integer of exactly that type, in big endian, or such a variable-length integer. -/
theorem varint_takes_iff {n : String} {k : Scalar} (hn : (n, k) ∈ varints) {a ra : AType} (ha : resolve h a = .ok ra) :
    assignable (preludeEnv ms) h (.foreign n) a = .ok true ↔ ra = .scalar ⟨k, .big⟩ ∨ ∃ f, ra = .foreign f ∧ (f, k) ∈ varints := by
  rw [assignable_resolved (resolve_plain rfl) ha]
  have hk := varints_kind hn
  cases ra <;> try simp only [assignableRes, preludeEnv, preludeFrom, hk, scalarFrom_iff (resolve_resolved ha)]
  case foreign f =>
    simp only [assignableRes, preludeEnv, preludeTo]
    constructor
    · intro hc
      right
      cases hf : varKind f with
      | some k' =>
        simp only [hf, hk, Except.ok.injEq, beq_iff_eq, Option.some.injEq] at hc
        subst hc
        exact ⟨f, rfl, varKind_mem hf⟩
      | none =>
        simp only [hf, preludeFrom] at hc
        cases hc
    · rintro (e | ⟨f', e, hf⟩)
      · cases e
      · cases e
        simp [varints_kind hf, hk]

/-- **C38.** A variable-length integer may be used where an integer is expected exactly if it is read into that one; where any number or anything is expected, it may be used. -/
theorem varint_used_iff {n : String} {k : Scalar} (hn : (n, k) ∈ varints) (k' : Scalar) :
    ((PType.scalar (.some k')).assignable (preludeEnv ms) h (.foreign n) = .ok true ↔ k' = k) ∧
    (PType.scalar .none).assignable (preludeEnv ms) h (.foreign n) = .ok true ∧ PType.any.assignable (preludeEnv ms) h (.foreign n) = .ok true ∧
    (PType.type .bool).assignable (preludeEnv ms) h (.foreign n) = .ok false := by
  have hk := varints_kind hn
  have hr : resolve h (.foreign n) = .ok (.foreign n) := resolve_plain rfl
  refine ⟨?_, ?_, ?_, ?_⟩
  · rw [PType.assignable, hr]
    simp only [Except.bind, preludeEnv, preludeToPartial, hk, preludeFrom]
    rw [scalarFrom_iff (resolve_plain (h := h) (t := .scalar k'.toE) rfl)]
    simp [Scalar.toE]
  · rw [PType.assignable, hr]
    simp [Except.bind, preludeEnv, preludeToPartial, hk]
  · rw [PType.assignable, hr]
    simp [Except.bind, preludeEnv, preludeToPartial]
  · rw [PType.assignable, hr]
    simp [Except.bind, preludeEnv, preludeToPartial, preludeTo, hk]

/-- **C38.** A string takes arrays of its units, and nothing else: no strings. -/
theorem string_takes_iff {n : String} {k : Scalar} (hn : (n, k) ∈ strings) {a ra : AType} (ha : resolve h a = .ok ra) (fa : ∀ f, ra ≠ .foreign f)
    (hel : ∀ tag el x len, ra = .array tag el x len → ∃ r, resolve h el = .ok r) :
    assignable (preludeEnv ms) h (.foreign n) a = .ok true ↔
      ∃ tag el x len, ra = .array tag el x len ∧ resolve h el = .ok (.scalar ⟨k, .big⟩) := by
  rw [assignable_resolved (resolve_plain rfl) ha]
  obtain ⟨hk, ht⟩ := strings_kind hn
  cases ra <;> try simp [assignableRes, preludeEnv, preludeFrom, hk]
  case foreign f => exact absurd rfl (fa f)
  case array tag el x len =>
    obtain ⟨r, hr⟩ := hel _ _ _ _ rfl
    rw [ht, scalarFrom_iff hr]
    have hno : ∀ f, (f, k) ∉ varints := by
      intro f hf
      simp only [strings, List.mem_cons, Prod.mk.injEq, List.not_mem_nil, or_false] at hn
      rcases hn with ⟨-, rfl⟩ | ⟨-, rfl⟩ <;> simp [varints] at hf
    constructor
    · rintro (e | ⟨f, -, hf⟩)
      · exact ⟨tag, el, ⟨rfl, rfl⟩, e ▸ hr⟩
      · exact absurd hf (hno f)
    · rintro ⟨_, _, ⟨rfl, rfl⟩, e⟩
      rw [hr] at e
      exact .inl (Except.ok.inj e)

/-- **C38.** A string may be used where anything is expected, or an array of its units declared as such (a field, an argument); not where a number, some number or any
array is expected: `len` takes it, indexing does not. -/
theorem string_used_iff {n : String} {k : Scalar} (hn : (n, k) ∈ strings) (k' : Scalar) (el : Option PType) (t : AType) :
    PType.any.assignable (preludeEnv ms) h (.foreign n) = .ok true ∧
    (PType.scalar .none).assignable (preludeEnv ms) h (.foreign n) = .ok false ∧
    (PType.scalar (.some k')).assignable (preludeEnv ms) h (.foreign n) = .ok false ∧
    (PType.scalar (.defaults k')).assignable (preludeEnv ms) h (.foreign n) = .ok false ∧
    (PType.array el).assignable (preludeEnv ms) h (.foreign n) = .ok false ∧
    ((PType.type t).assignable (preludeEnv ms) h (.foreign n) = .ok true ↔
      ∃ tag e x len, t = .array tag e x len ∧
        (resolve h e = .ok (.scalar ⟨k, .big⟩) ∨ ∃ f, resolve h e = .ok (.foreign f) ∧ (f, k) ∈ varints)) := by
  obtain ⟨hk, ht⟩ := strings_kind hn
  have hr : resolve h (.foreign n) = .ok (.foreign n) := resolve_plain rfl
  refine ⟨?_, ?_, ?_, ?_, ?_, ?_⟩
  · rw [PType.assignable, hr]
    simp [Except.bind, preludeEnv, preludeToPartial]
  · rw [PType.assignable, hr]
    simp [Except.bind, preludeEnv, preludeToPartial, hk]
  · rw [PType.assignable, hr]
    simp [Except.bind, preludeEnv, preludeToPartial, preludeTo, preludeFrom, hk]
  · rw [PType.assignable, hr]
    simp [Except.bind, preludeEnv, preludeToPartial, preludeTo, preludeFrom, hk]
  · cases el <;> rw [PType.assignable, hr] <;> simp [Except.bind, preludeEnv, preludeToPartial]
  · rw [PType.assignable, hr]
    simp only [Except.bind, preludeEnv, preludeToPartial, preludeTo, hk]
    cases t
    case array tag e x len =>
      simp only [preludeFrom, hk, ht]
      have hs : scalarFrom k h e = .ok true ↔ (resolve h e = .ok (.scalar ⟨k, .big⟩) ∨ ∃ f, resolve h e = .ok (.foreign f) ∧ (f, k) ∈ varints) := by
        cases hq : resolve h e with
        | error er => simp [scalarFrom, hq, Except.bind]
        | ok r => rw [scalarFrom_iff hq]; simp only [Except.ok.injEq]
      rw [hs]
      constructor
      · exact fun hh => ⟨tag, e, x, len, rfl, hh⟩
      · rintro ⟨_, _, _, _, e', hh⟩
        cases e'
        exact hh
    all_goals simp [preludeFrom, hk]

/-- Spec: the functions of the prelude: the types of their parameters (none: any), all of which must be given, and of the result. -/
def functionTable : List (String × List (Option Scalar) × Scalar) :=
  [("len", [none], .u64), ("blen", [none], .u64), ("pad", [some .u64, some .u64], .u64), ("bits", [some .u64], .u8), ("sum", [none], .u64)]

/-- **C43, C48.** The prelude has these functions and no others; `len` and `blen` are there without an import. -/
theorem prelude_functions (n : String) :
    (preludeEnv ms).ffiFunction n = .ok ((functionTable.find? fun row => row.1 == n).map fun row =>
      ⟨(builtin n).elim [] (·.arguments), .scalar ⟨row.2.2, .big⟩⟩) ∧
    (∀ row ∈ functionTable, ∃ sig, (preludeEnv ms).ffiFunction row.1 = .ok (some sig) ∧ sig.ret = .scalar ⟨row.2.2, .big⟩ ∧
      sig.arguments.map (·.type) = row.2.1.map (·.map fun k => .scalar ⟨k, .big⟩) ∧ ∀ a ∈ sig.arguments, a.optional = false) ∧
    (preludeEnv ms).prelude.map (·.1) = ["len", "blen"] ∧ ∀ p ∈ (preludeEnv ms).prelude, (preludeEnv ms).ffiFunction p.1 = .ok (some p.2) := by
  refine ⟨?_, ?_, rfl, ?_⟩
  · show Except.ok (builtin n) = _
    unfold builtin
    split <;> try rfl
    rename_i h1 h2 h3 h4 h5
    have : functionTable.find? (fun row => row.1 == n) = none := by
      simp only [functionTable, List.find?_eq_none, List.mem_cons, List.not_mem_nil, or_false, forall_eq_or_imp, forall_eq, beq_iff_eq]
      exact ⟨fun e => h1 e.symm, fun e => h2 e.symm, fun e => h3 e.symm, fun e => h4 e.symm, fun e => h5 e.symm⟩
    rw [this]
    rfl
  · intro row hr
    simp only [functionTable, List.mem_cons, List.not_mem_nil, or_false] at hr
    rcases hr with rfl | rfl | rfl | rfl | rfl <;> exact ⟨_, rfl, rfl, rfl, by simp [anyArg, u64Arg]⟩
  · intro p hp
    simp only [preludeEnv, builtin, List.filterMap_cons, List.filterMap_nil, Option.map_some, List.mem_cons, List.not_mem_nil, or_false] at hp
    rcases hp with rfl | rfl <;> rfl

/-- **C42.** The foreign types of the prelude are the variable-length integers, without parameters, and the strings, with a length, which may be left out of `utf8` only; its transforms are
`gzip` and `base64`. -/
theorem prelude_types (n : String) :
    (∀ k, (n, k) ∈ varints → (preludeEnv ms).ffiType n = .ok (some [])) ∧
    (preludeEnv ms).ffiType "utf16" = .ok (some [⟨"length", .scalar ⟨.u64, .big⟩, none⟩]) ∧
    (preludeEnv ms).ffiType "utf8" = .ok (some [⟨"length", .scalar ⟨.u64, .big⟩, some (.int ⟨.u64, 18446744073709551615⟩ .u64)⟩]) ∧
    ((preludeEnv ms).ffiType n = .ok none ↔ n ∉ (varints ++ strings).map (·.1)) ∧
    ((preludeEnv ms).ffiTransform n = .ok (some []) ↔ n = "gzip" ∨ n = "base64") := by
  refine ⟨fun k hk => ?_, rfl, rfl, ?_, ?_⟩
  · simp only [varints, List.mem_cons, Prod.mk.injEq, List.not_mem_nil, or_false] at hk
    rcases hk with ⟨rfl, rfl⟩ | ⟨rfl, rfl⟩ | ⟨rfl, rfl⟩ | ⟨rfl, rfl⟩ | ⟨rfl, rfl⟩ <;> rfl
  · show Except.ok (builtinType n) = .ok none ↔ _
    simp only [varints, strings, List.cons_append, List.nil_append, List.map_cons, List.map_nil, List.mem_cons, List.not_mem_nil, or_false, Except.ok.injEq]
    constructor
    · rintro h (rfl | rfl | rfl | rfl | rfl | rfl | rfl) <;> cases h
    · intro h
      simp only [not_or] at h
      unfold builtinType
      split
      · exact absurd rfl h.2.2.2.2.2.1
      · exact absurd rfl h.2.2.2.2.2.2
      · unfold varKind
        split <;> first | rfl | simp at h
  · show Except.ok (if n = "gzip" ∨ n = "base64" then some [] else none) = .ok (some []) ↔ _
    split <;> simp [*]

/-- Cases: an array of bytes may be expected of a `utf8` string, an array of `u16` may not. -/
example (tag : Nat) : (PType.type (.array tag (.scalar ⟨.u8, .big⟩) false none)).assignable (preludeEnv []) [] (.foreign "utf8") = .ok true ∧
    (PType.type (.array tag (.scalar ⟨.u16, .big⟩) false none)).assignable (preludeEnv []) [] (.foreign "utf8") ≠ .ok true := by
  refine ⟨(string_used_iff (ms := []) (h := []) (n := "utf8") (k := .u8) (by simp [strings]) .u8 none _).2.2.2.2.2.2 ⟨_, _, _, _, rfl, .inl (resolve_plain rfl)⟩, fun hc => ?_⟩
  obtain ⟨_, _, _, _, e, hh⟩ := (string_used_iff (ms := []) (h := []) (n := "utf8") (k := .u8) (by simp [strings]) .u8 none _).2.2.2.2.2.1 hc
  cases e
  rw [resolve_plain rfl] at hh
  rcases hh with hh | ⟨f, hh, -⟩ <;> cases hh

/-- Cases: `v32` takes an `i32`, not a `u32`; `utf16` takes an array of `u16`. -/
example (tag : Nat) (len : Option AExpr) :
    assignable (preludeEnv []) [] (.foreign "v32") (.scalar ⟨.i32, .big⟩) = .ok true ∧ assignable (preludeEnv []) [] (.foreign "v32") (.scalar ⟨.u32, .big⟩) ≠ .ok true ∧
    assignable (preludeEnv []) [] (.foreign "utf16") (.array tag (.scalar ⟨.u16, .big⟩) false len) = .ok true := by
  refine ⟨(varint_takes_iff (k := .i32) (by simp [varints]) (resolve_plain rfl)).2 (.inl rfl),
    fun hc => ?_, (string_takes_iff (k := .u16) (by simp [strings]) (resolve_plain rfl) (by simp) fun _ el _ _ e => ?_).2 ⟨tag, _, false, len, rfl, resolve_plain rfl⟩⟩
  · rcases (varint_takes_iff (k := .i32) (by simp [varints]) (resolve_plain rfl)).1 hc with e | ⟨f, e, -⟩ <;> cases e
  · cases e
    exact ⟨_, resolve_plain rfl⟩

end Verif.Props
