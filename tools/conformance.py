#!/usr/bin/env python3
"""Extracts the specifications in /repo/protospec-build/tests and writes lean/Verif/Conformance.lean: the model
accepts and rejects exactly what those tests expect to be accepted and rejected."""
import re, glob, json, os
root = '/repo/protospec-build/tests'
def lit(s): return json.dumps(s, ensure_ascii=True)
rows = {'parse': [], 'semantic': [], 'compiler': []}
mods = {}
for f in sorted(glob.glob(root + '/**/*.rs', recursive=True)):
    rel = os.path.relpath(f, root)
    kind = rel.split('/')[0]
    if kind not in rows or rel.endswith('mcproto.rs'): continue   # mcproto.rs is not part of the crate (integration/mod.rs 3)
    src = open(f).read()
    # modules of the mocked resolver
    m = re.search(r'let imported = r#"(.*?)"#;', src, re.S)
    if m: mods[rel] = [('test-import', m.group(1))] + ([('malformed', ';')] if '"malformed"' in src else [])
    for t in re.split(r'#\[test\]', src)[1:]:
        name = re.search(r'fn (\w+)\(', t).group(1)
        call = re.search(r'\b(parse|load_asg_with|load_asg)\(\s*r#"(.*?)"#', t, re.S)
        if not call:
            print('no spec in', rel, name); continue
        head = t.split('let test = quote!')[0]
        ok = '.err()' not in head
        rows[kind].append((rel, name, call.group(1), call.group(2), ok, rel if call.group(1) == 'load_asg_with' else None))
for k in rows: print(k, len(rows[k]))
json.dump([rows, mods], open('/tmp/conf.json', 'w'))

out = ['''import Verif.Parser
import Verif.Sem.PreludeEnv
import Verif.Sem.Lower
/-!
# The model and the project's own test suite

Not proofs of anything about the code: tests of the model. Every specification in
`/repo/protospec-build/tests` that is compiled into the test suite is run through the modelled tokenizer,
parser, conversion and generators' view, and must be accepted or rejected as the test there expects (`#guard` runs the model; no theorem rests on it).
Generated by `tools/conformance.py`; `testEnv` models `TestImportResolver` and `MockImportResolver` of
`tests/mod.rs` 23-225 behind `PreludeImportResolver`.
-/
namespace Verif.Conformance
open Verif Sem

/-- `tests/mod.rs` 92-111. -/
def isU32 : AType → Bool
  | .scalar s => s.scalar == .u32
  | _ => false

def testFrom (name : String) (h : Heap) (t : AType) : R Bool :=
  if name = "test_type" then .ok (isU32 t) else preludeFrom name h t
def testTo (name : String) (h : Heap) (t : AType) : R Bool :=
  if name = "test_type" then .ok (isU32 t) else preludeTo name h t
/-- `ffi/type_.rs` 47-58 for `test_type`. -/
def testToPartial (name : String) (h : Heap) (P : PType) : R Bool :=
  if name = "test_type" then
    match P with
    | .type t => testTo name h t
    | .any => .ok true
    | .scalar (.some k) => testTo name h (.scalar k.toE)
    | .scalar (.defaults k) => testTo name h (.scalar k.toE)
    | _ => .ok false
  else preludeToPartial name h P

/-- The resolver of the tests; `modules` are the sources of `MockImportResolver`. -/
def testEnv (modules : List (String × String)) : Env :=
  { preludeEnv [] with
    ftFrom := testFrom
    ftTo := testTo
    ftToPartial := testToPartial
    load := fun n => .ok ((IMap.get modules n).map fun s =>
      match parse (ascii s) with
      | .ok a => some a
      | .error _ => none)
    ffiType := fun n => if n = "test_type" then .ok (some []) else .ok (builtinType n)
    ffiTransform := fun n =>
      if n = "test_transform" then .ok (some [⟨"offset", some (.scalar Scalar.u8.toE), true⟩])
      else (preludeEnv []).ffiTransform n }

/-- What a test calls. -/
inductive Call
  /-- `parse(..)` -/
  | parse
  /-- `load_asg(..)`, `load_asg_with(..)` -/
  | loadAsg
  /-- `load_asg(..)` and `compile_program(..)` -/
  | compile

/-- Whether it succeeds; no answer if the model panics, diverges or does not cover it. -/
def outcome (c : Call) (modules : List (String × String)) (src : String) : Option Bool :=
  match Verif.parse (ascii src) with
  | .error (.unexpected _) | .error .eof | .error (.token _) => some false
  | .error .panic | .error .diverge => none
  | .error _ => some false
  | .ok ast =>
    match c with
    | .parse => some true
    | c =>
      match convert (testEnv modules) 5 ast, c with
      | .error (.asg _), _ => some false
      | .error _, _ => none
      | .ok (p, h, _), .compile =>
        match lowerTypes true h 9 p.types with
        | .ok _ => some true
        | .error _ => none
      | .ok _, _ => some true
''']
for rel, ms in sorted(mods.items()):
    d = 'modules_' + re.sub(r'\W', '_', rel)
    out.append('/-- `tests/%s` (`base_import`). -/\ndef %s : List (String × String) :=\n  [%s]\n' % (rel, d, ',\n   '.join('(%s, %s)' % (lit(a), lit(b)) for a, b in ms)))
byfile = {}
for k in rows:
    for rel, name, call, spec, ok, m in rows[k]:
        c = '.parse' if call == 'parse' else ('.compile' if k == 'compiler' else '.loadAsg')
        ml = 'modules_' + re.sub(r'\W', '_', m) if m else '[]'
        byfile.setdefault(rel, []).append('-- `%s`\n#guard outcome %s %s\n    %s == some %s\n' % (name, c, ml, lit(spec), 'true' if ok else 'false'))
for rel in byfile:
    out.append('/-! ## tests/%s -/\n' % rel)
    out += byfile[rel]
out.append('end Verif.Conformance\n')
open('/verif/lean/Verif/Conformance.lean', 'w').write('\n'.join(out))
