import Verif.CompileSpec
import Verif.Props.Closed
/-!
# C79: `compile_spec` writes the file or says why not
-/
namespace Verif.Props
open Verif Verif.Sem

/-- Spec: where the file for `name` is put: in the directory, under the name with `.rs`; a name that is an absolute path stands for itself. -/
inductive Target (dir name : List Char) : List Char → Prop
  | absolute {rest} : name = '/' :: rest → Target dir name (name ++ ['.', 'r', 's'])
  | inside {sep} : (∀ rest, name ≠ '/' :: rest) → sep = (if dir = [] ∨ dir.getLast? = some '/' then [] else ['/']) → Target dir name (dir ++ sep ++ name ++ ['.', 'r', 's'])

/-- Spec: everything goes well: the text is a specification, it is accepted, code is generated, formatted (if that was asked for), and the file can be written. -/
def GoesWell (w : World) (emit : Prog → Heap → Option (List Char)) (name : List Char) (spec : Text) (format : Bool) (path content : List Char) : Prop :=
  ∃ ast p h loads text dir, parse spec = .ok ast ∧ convert shippedEnv 1 ast = .ok (p, h, loads) ∧ emit p h = some text ∧
    (format = true → w.rustfmt text = some content) ∧ (format = false → content = text) ∧ w.outDir = some dir ∧ Target dir name path ∧ w.canWrite path = true

theorem target_iff {dir name path : List Char} : Target dir name path ↔ path = pushPath dir (name ++ ".rs".toList) := by
  have e : ".rs".toList = ['.', 'r', 's'] := rfl
  rw [e]
  constructor
  · intro h
    cases h with
    | absolute hn => subst hn; simp [pushPath]
    | inside hn hs =>
      have : (name ++ ['.', 'r', 's']).head? ≠ some '/' := by
        cases name with
        | nil => simp
        | cons c rest => simp only [List.cons_append, List.head?_cons, ne_eq, Option.some.injEq]; rintro rfl; exact hn rest rfl
      subst hs
      unfold pushPath
      rw [if_neg this]
      split <;> simp
  · rintro rfl
    by_cases hn : ∃ rest, name = '/' :: rest
    · obtain ⟨rest, rfl⟩ := hn
      have : pushPath dir ('/' :: rest ++ ['.', 'r', 's']) = '/' :: rest ++ ['.', 'r', 's'] := by simp [pushPath]
      rw [this]
      exact .absolute rfl
    · have h0 : ∀ rest, name ≠ '/' :: rest := fun rest hr => hn ⟨rest, hr⟩
      have : (name ++ ['.', 'r', 's']).head? ≠ some '/' := by
        cases name with
        | nil => simp
        | cons c rest => simp only [List.cons_append, List.head?_cons, ne_eq, Option.some.injEq]; rintro rfl; exact h0 rest rfl
      have e : pushPath dir (name ++ ['.', 'r', 's']) = dir ++ (if dir = [] ∨ dir.getLast? = some '/' then [] else ['/']) ++ name ++ ['.', 'r', 's'] := by
        unfold pushPath
        rw [if_neg this]
        split <;> simp
      rw [e]
      exact .inside h0 rfl

/-- **C79.** `compile_spec` returns `Ok` exactly if everything goes well, and then it has written that one file. -/
theorem compile_spec_writes_iff {w : World} {emit : Prog → Heap → Option (List Char)} {name : List Char} {spec : Text} {format : Bool} {path content : List Char} :
    compileSpec w emit name spec format = .written path content ↔ GoesWell w emit name spec format path content := by
  unfold compileSpec GoesWell
  constructor
  · intro h
    split at h <;> try cases h
    rename_i ast hp
    split at h <;> try cases h
    rename_i p g loads hc
    split at h <;> try cases h
    rename_i text he
    split at h <;> try cases h
    rename_i out hf
    unfold writeOut at h
    split at h <;> try cases h
    rename_i dir hd
    split at h <;> cases h
    rename_i hw
    refine ⟨ast, p, g, loads, text, dir, hp, hc, he, fun hfm => ?_, fun hfm => ?_, hd, target_iff.2 rfl, hw⟩
    · simpa [formatted, hfm] using hf
    · simp [formatted, hfm] at hf
      exact hf.symm
  · rintro ⟨ast, p, g, loads, text, dir, hp, hc, he, h1, h2, hd, ht, hw⟩
    have hf : formatted w format text = some content := by
      unfold formatted
      cases format with
      | true => exact h1 rfl
      | false => simp [h2 rfl]
    rw [target_iff] at ht
    subst ht
    simp only [hp, hc, he, hf, writeOut, hd, hw, if_true]

/-- **C79.** Whether a specification is refused depends on its text alone: not on the name, the options, the directory or the tools; and nothing is written then. -/
theorem compile_spec_refused_iff {w w' : World} {emit emit' : Prog → Heap → Option (List Char)} {name name' : List Char} {spec : Text} {format format' : Bool} :
    compileSpec w emit name spec format = .refused ↔ compileSpec w' emit' name' spec format' = .refused := by
  have no : ∀ (w : World) (name content : List Char), writeOut w name content ≠ .refused := by
    intro w name content
    unfold writeOut
    split
    · simp
    · split <;> simp
  unfold compileSpec
  split <;> try simp
  split <;> try simp
  constructor
  · intro h
    split at h <;> try cases h
    split at h <;> try cases h
    exact absurd h (no _ _ _)
  · intro h
    split at h <;> try cases h
    split at h <;> try cases h
    exact absurd h (no _ _ _)

theorem loadDecls_import_refused {env : Env} {L : String → Cache → M Cache} (hn : ∀ t, ∃ n, env.normalize t = .ok n) (hL : ∀ n c s, L n c s = .error (.asg .unknown)) {items : List Ast.ImportItem} {src : Text} :
    ∀ {ast : Ast.Program} {c : Cache} {s : St}, c.mods = [] → .import_ items src ∈ ast → loadDecls env L ast c s = .error (.asg .unknown)
  | d :: rest, c, s, hc, hm => by
    have hrest : d ≠ .import_ items src → Ast.Decl.import_ items src ∈ rest := fun hd => by
      rcases List.mem_cons.1 hm with e | e
      · exact absurd e.symm hd
      · exact e
    cases d with
    | import_ items' src' =>
      obtain ⟨n, hn'⟩ := hn src'
      rw [loadDecls, run_bind]
      have hl : (liftR (env.normalize src') : M String) s = .ok (n, s) := liftR_ok.2 ⟨hn', rfl⟩
      rw [hl]
      simp only [Except.bind]
      have h0 : (IMap.get c.mods n).isSome = false := by rw [hc]; rfl
      rw [h0]
      simp only [Bool.false_eq_true, if_false]
      rw [run_bind, hL]
      rfl
    | _ => rw [loadDecls]; exact loadDecls_import_refused hn hL hc (hrest (by simp)); all_goals simp

/-- **C79.** With `compile_spec` no module can be imported: a specification with an import is refused (not with a panic), before anything else is looked at. -/
theorem shipped_import_refused {n : Nat} {ast : Ast.Program} {items : List Ast.ImportItem} {src : Text} (h : .import_ items src ∈ ast) :
    convert shippedEnv (n + 1) ast = .error (.asg .unknown) := by
  have hL : ∀ name c s, loadModule shippedEnv (loadImports shippedEnv n) name c s = .error (.asg .unknown) := by
    intro name c s
    unfold loadModule
    rw [run_bind]
    rfl
  unfold convert
  have : (fromAst shippedEnv (n + 1) ast).run ⟨[], 0⟩ = .error (.asg .unknown) := by
    show (fromAst shippedEnv (n + 1) ast) ⟨[], 0⟩ = _
    unfold fromAst
    rw [run_bind, loadImports, loadDecls_import_refused (fun t => ⟨_, rfl⟩) hL rfl h]
    rfl
  rw [this]
  rfl

/-- Spec: what `import_ffi` can name. -/
def Importable (name : String) : Ast.FfiKind → Prop
  | .type => name ∈ ["v8", "v16", "v32", "v64", "v128", "utf8", "utf16"]
  | .transform => name ∈ ["base64", "gzip"]
  | .function => name ∈ ["blen", "len", "pad", "bits", "sum"]

theorem orNull_some {α : Type} {r : R (Option α)} {a : α} (h : orNull r = .ok (some a)) : r = .ok (some a) := by
  unfold orNull at h
  split at h
  · cases h
  · exact h

theorem passFfi_importable : ∀ {ast : Ast.Program} {p p' : Prog} {s s' : St}, passFfi shippedEnv ast p s = .ok (p', s') → ∀ name k, .ffi name k ∈ ast → Importable name k
  | [], p, p', s, s', _, name, k, hm => by cases hm
  | .ffi n' k' :: rest, p, p', s, s', h, name, k, hm => by
    simp only [passFfi, bind_run_ok] at h
    obtain ⟨p1, s1, h1, h2⟩ := h
    rcases List.mem_cons.1 hm with e | hm
    · cases e
      have := convFfi_ok h1
      cases k' with
      | type =>
        obtain ⟨as, ha, -⟩ := this
        have hb : builtinType n' = some as := Except.ok.inj (orNull_some ha)
        unfold builtinType varKind at hb
        simp only [Importable, List.mem_cons, List.not_mem_nil, or_false]
        split at hb
        · simp
        · simp
        · split at hb <;> simp at hb ⊢
      | transform =>
        obtain ⟨as, ha, -⟩ := this
        have hb : (if n' = "gzip" ∨ n' = "base64" then some ([] : List FfiArg) else none) = some as := Except.ok.inj (orNull_some ha)
        simp only [Importable, List.mem_cons, List.not_mem_nil, or_false]
        split at hb
        · rename_i hg; exact hg.symm
        · cases hb
      | function =>
        obtain ⟨as, ha, -⟩ := this
        have hb : builtin n' = some as := Except.ok.inj (orNull_some ha)
        unfold builtin at hb
        simp only [Importable, List.mem_cons, List.not_mem_nil, or_false]
        split at hb <;> simp at hb ⊢
    · exact passFfi_importable h2 name k hm
  | .import_ .. :: rest, p, p', s, s', h, name, k, hm => by
    rw [passFfi] at h
    · exact passFfi_importable h name k (by simpa using hm)
    · simp
  | .type .. :: rest, p, p', s, s', h, name, k, hm => by
    rw [passFfi] at h
    · exact passFfi_importable h name k (by simpa using hm)
    · simp
  | .const .. :: rest, p, p', s, s', h, name, k, hm => by
    rw [passFfi] at h
    · exact passFfi_importable h name k (by simpa using hm)
    · simp

/-- **C79.** A specification for which `compile_spec` writes a file has no imports, and imports nothing foreign but what comes with protospec. -/
theorem compile_spec_self_contained {w : World} {emit : Prog → Heap → Option (List Char)} {name : List Char} {spec : Text} {format : Bool} {path content : List Char}
    (h : compileSpec w emit name spec format = .written path content) :
    ∃ ast, parse spec = .ok ast ∧ (∀ items src, .import_ items src ∉ ast) ∧ ∀ n k, .ffi n k ∈ ast → Importable n k := by
  obtain ⟨ast, p, g, loads, text, dir, hp, hc, -⟩ := compile_spec_writes_iff.1 h
  refine ⟨ast, hp, fun items src hm => ?_, ?_⟩
  · rw [shipped_import_refused hm] at hc
    cases hc
  · unfold convert at hc
    rw [rmap_ok] at hc
    obtain ⟨⟨⟨p1, l1⟩, s1⟩, hc, -⟩ := hc
    change fromAst shippedEnv 1 ast ⟨[], 0⟩ = _ at hc
    simp only [fromAst, bind_run_ok] at hc
    obtain ⟨c, s2, -, p2, s3, h3, -⟩ := hc
    simp only [fromAstImported, bind_run_ok] at h3
    obtain ⟨p4, s4, h4, -⟩ := h3
    exact passFfi_importable h4

/-- The resolver of `compile_spec` meets the hypotheses of the theorems about accepted programs. -/
theorem shippedEnv_closed : EnvClosed shippedEnv := by
  have hp := preludeEnv_closed []
  have ho : ∀ {α : Type} {P : Option α → Prop} {r : R (Option α)}, Tight P r → Tight P (orNull r) := by
    intro α P r hr
    unfold orNull
    split
    · exact ⟨by simp, by simp⟩
    · exact hr
  exact ⟨hp.same, hp.ftFrom, hp.ftTo, hp.ftToPartial, hp.normalize, fun n => by simp [shippedEnv], fun n => ho (hp.ffiType n), fun n => ho (hp.ffiTransform n), fun n => ho (hp.ffiFunction n), hp.prelude⟩

/-- **C79** (finding). The exit status of rustfmt is ignored: if it refuses the generated code, an empty file is written, and `compile_spec` returns `Ok`. -/
theorem format_failure_finding {w : World} {emit : Prog → Heap → Option (List Char)} {name : List Char} {spec : Text} {ast : Ast.Program} {p : Prog} {g : Heap} {loads : List String}
    {text dir path : List Char} (hp : parse spec = .ok ast) (hc : convert shippedEnv 1 ast = .ok (p, g, loads)) (he : emit p g = some text) (hf : w.rustfmt text = some [])
    (hd : w.outDir = some dir) (ht : Target dir name path) (hw : w.canWrite path = true) : compileSpec w emit name spec true = .written path [] :=
  compile_spec_writes_iff.2 ⟨ast, p, g, loads, text, dir, hp, hc, he, fun _ => hf, by simp, hd, ht, hw⟩

/-- A world for the cases: rustfmt refuses the text `fn`, whatever it is, and leaves others as they are. -/
def plainWorld : World := ⟨some "/out".toList, fun t => some (if t = "struct fn".toList then [] else t), fun _ => true⟩

set_option maxRecDepth 4000 in
/-- Cases: a specification is written to `/out/a.rs`; one that rustfmt does not take gives an empty file; one with an import is refused, and one with an unknown foreign type. -/
example : compileSpec plainWorld (fun _ _ => some "struct a".toList) "a".toList (ascii "type a = u8;") true = .written "/out/a.rs".toList "struct a".toList ∧
    compileSpec plainWorld (fun _ _ => some "struct fn".toList) "a".toList (ascii "type fn = u8;") true = .written "/out/a.rs".toList [] ∧
    compileSpec plainWorld (fun _ _ => some []) "a".toList (ascii "import a from \"b\";") true = .refused ∧
    compileSpec plainWorld (fun _ _ => some []) "a".toList (ascii "import_ffi a as type;") true = .refused ∧
    compileSpec { plainWorld with outDir := none } (fun _ _ => some []) "a".toList (ascii "type a = u8;") true = .panics := by
  decide +kernel

end Verif.Props
