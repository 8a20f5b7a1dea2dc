| what coder/* and compiler/* read of the graph (one model of the boundary between front end and back end) | `Sem/Lower` | `Sem/LowerShape` |
| tests/* (test of the model: it accepts and rejects what the project's 220 tests expect; `#guard`, no theorem rests on it) | | `Conformance` |
| (proof only) closed graphs; provenance of types; scoping; never dangling | | `Sem/Closed`, `Sem/History`, `Sem/Scoping`, `Sem/LowerFirm`, `Lexical` (spec), `Props/Closed`, `Props/Scope`, `Props/EndToEnd` |
| compiler/mod.rs 135-167, 308-469 (declared Rust types), compiler/expr.rs (type rules of what it emits) | `RustTypes`, `RustCheck` | `DecodeTyped`, `DecodeSafe`, `EncodeSafe`, `Props/RustTypes` |
| (proof only) where names and cells come from; what the text says | | `Says` (spec), `Sem/Origin`, `Sem/Grounded`, `Sem/Saying`, `Props/Says` |
| (proof only) decoders on hostile input | | `Bounds`, `Survive`, `Props/Survive` |
| (proof only) readers that deliver the input in pieces; where messages end | `Schedule` (coder/decode/array.rs on a reader with partial fill_buf) | `Delimited`, `Props/Schedule`, `Props/Delimited` |
| compiler/encoder.rs on writers that fail; prelude/gzip.rs, compiler/mod.rs 228-262 (async variants) | `Writer` | `Uses`, `Props/Writer`, `Props/Async` |
| compiler/expr.rs 19-21, compiler/decoder.rs, compiler/encoder.rs: names of variables, Rust's scopes | `Hygiene` | `Props/Hygiene` |
| (proof only) decoders are injective | | `Lossless`, `Props/Lossless` |
| (proof only) encoders after decoders | | `Forth`, `Props/Forth` |
| compiler/decoder.rs, coder/decode/array.rs on readers that fail; prelude/utf8.rs likewise | `Fail`, `Props/Fail` (utf8DecF) | `Fail`, `Props/Fail` |
| compiler/mod.rs 606-731: the functions of bitfield types | `Flags` | `Props/Flags` |
| compiler/mod.rs 135-167, 308-469: layout of generated types | `Sizes` | `Sizes`, `Props/Sizes` |
| compiler/decoder.rs, compiler/mod.rs 258: types of reader variables, instances of generic functions | `Readers`, `Instances` | `Readers`, `Instances`, `Props/Readers`, `Props/Instances` |
| compiler/encoder.rs, compiler/mod.rs 263: types and ownership of writer variables | `Sinks` | `Sinks`, `Props/Sinks` |
| compiler/mod.rs 50-88, 146-172, 408-449, 459-468, 530-560, 649, lib.rs 43-77: derives, `impl Default` | `Traits`, `Defaults` | `Props/Traits`, `Props/Defaults` |
| (analysis of encoders: `Encode*`) | `EncodeSurvive` | `Props/EncodeSurvive` |
| compiler/mod.rs 15-17, 91-184, 191-272, 308-731; templates of decoder.rs, encoder.rs, expr.rs, prelude/*: names | `RustNames` | `NameGen`, `Props/RustNames`, `Props/NamesClosed` |
| compiler/mod.rs 187-226: parameters with default values | `Defaulted` | `Called`, `DefaultedSays`, `Props/Defaulted`, `Props/DefaultedTrip` |
| lib.rs 76-114 (`compile_spec`), import.rs (`NullImportResolver`), prelude/resolver.rs | `CompileSpec` | `Props/CompileSpec` |
