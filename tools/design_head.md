# A Lean 4 model of protospec

This file is generated by `tools/gen_design.py` from `tools/design_head.md`, `tools/design_tail.md` and `MANIFEST.json`.

## Trusted base
* **Lean 4.33.0's kernel.** No axioms are added. Every theorem named in `MANIFEST.json` depends on at most `propext`,
  `Classical.choice` and `Quot.sound` (checked with `#print axioms` for all of them; a few depend on less or on none).
  No compiled evaluation is used; concrete cases are `rfl`, `decide` or `decide +kernel` (kernel reduction).
* **The translation from Rust to Lean**, done by hand. Every definition of the model cites the file and lines it models and
  names its simplifications.
* **The specifications** a theorem compares the model with. They are separate definitions that do not mention the model's
  helpers: `DecodeSpec`, `EncodeSpec` + `Order.wire`, `TokenSpec`, `ParserSpec`, `PrintSpec`, `Sem/Spec`, the first part of
  `Sem/Elab`, `Sem/ElabProgram`, `Sem/Shape`, `Sem/Dups`, `Sem/Typed`, and the definitions marked "Spec:" in `Props/*`.
* **What protospec does not implement itself**, taken as follows:
  * `std::io`: a reader is the list of bytes it will still deliver, a writer appends to a list; readers and writers do not
    fail by themselves; `usize` has 64 bits.
  * Rust integer arithmetic and `as` as in the reference, with `overflow-checks` as a parameter (`oc`): both settings are covered.
  * rustc's reading of the emitted tokens: the emitted statements are given meaning by interpreters (`DecodeVM.exec`,
    `EncodeVM.exec`, `Runtime.evalE`). Emitted text that rustc rejects is the outcome `ill`. Borrow checking is not modelled.
  * foreign types and transforms (also gzip and base64) are parameters (`Ext`), with their own correctness as an explicit
    hypothesis where one is needed (round trip, locality).
  * `HashMap` iteration order is the order of a list with distinct keys; theorems hold for every such list.
  * an import resolver is a parameter (`Env`): any function from paths to modules, any set of foreign items.
  * derived equality of ASG types (which compares source spans) is the parameter `Env.same`.

## What is modelled
| Part of the code (protospec-build/src) | Lean modules (model) | Lean modules (lemmas) |
|---|---|---|
| ast/types/scalar.rs; byte conversion of integers | `Scalar` | `ScalarLemmas` |
| asg/expression/const_int.rs | `ConstInt` | `ConstLemmas` |
| asg/expression as the generators see it; compiler/expr.rs (eval_const_expression, emit_expression) | `Expr`, `Runtime` | `ExprLemmas` |
| prelude/* (var, utf8, utf16, pad, len, blen, sum, bits) | `Prelude`, `Expr`, `Wire` | |
| compiler/mod.rs: generate_enum, generate_bitfield; numbering of enum and bitfield items | `Repr` | |
| compiler/mod.rs: derive lists | `Derives` | |
| coder/decode/*, compiler/decoder.rs | `Schema`, `Wire`, `DecodeVM` | `DecodeRefine` |
| coder/encode/*, compiler/encoder.rs | `Schema`, `Wire`, `EncodeVM` | `EncodeRefine`, `EncodeItems`, `EncodeSim`, `EncodeDecl`, `Order`, `RoundTrip` |
| tokenizer.rs | `Tokenizer` | `TokenTables`, `TokenLemmas`, `TokenGobble` |
| ast/*, parser/* | `Ast`, `Parser` | `ParserLemmas`, `ParserSafe`, `ParserSound`, `ParserComplete` |
| asg/*, semantics/partial_type.rs | `Sem/Asg` | `Sem/Types` |
| semantics/convert/*, resolve.rs, scope.rs | `Sem/Convert` | `Sem/IMap`, `Sem/Lemmas`, `Sem/Sound`, `Sem/Passes`, `Sem/Elab`, `Sem/Dups`, `Sem/Shape`, `Sem/Placed`, `Sem/Typed` |
| semantics/convert/program/*, asg/program.rs, import.rs | `Sem/Program` | `Sem/ElabProgram` |
| prelude/resolver.rs | `Sem/PreludeEnv` | |
MODULES_EXTRA
The properties are in `Props/*`.

## What is not modelled
* The text `compile_program` emits, rustfmt itself and the file system (parameters of `CompileSpec`), `result.rs` (printing of errors), `Display` of ASG/AST nodes.
* The text of the emitted items: struct and impl headers, visibility, `TokenStream` layout, emitted async variants (`compile_to_async`): they differ from the sync ones in `.await` and trait names.
* Default values of type parameters are modelled in `Defaulted` only (C78); all other properties are about specifications without them (`Schema.Decl` has none, and lowering refuses them).
* The insides of gzip (flate2), base64, f32/f64 arithmetic. Floats on the wire are bit patterns.
* User-written foreign functions (`ForeignFunction` of a custom resolver): the builtin functions only.
* Spans in the AST/ASG beyond what C30 says about token spans; the wording of errors.
