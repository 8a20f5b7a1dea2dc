import Verif.Props.Defaulted
/-!
# Types with default values, from the source to bytes and back

C78, with C55: also for types whose parameters have default values.
-/
namespace Verif.Sem
open Verif Props Enc

/-- `lowerDecl_lexical` for types with default values. -/
theorem lowerEntry_lexical {p : Prog} {oc : Bool} {h : Heap} (hh : WfHeap h) {m : Nat} {id : FId} {x : AField}
    {f : Ast.Field} {e : Entry} (hx : h[id]? = some x) (he : ElabMid p h (paramFrame x.arguments :: topScope) f x)
    (hd : DistinctField f) (hp : PadFreeField f) (hl : lowerEntry oc h m id = .ok e) : LexicalDecl e.decl := by
  have hw := hh id x hx
  have hi := sight_top (h := h) (as := x.arguments)
  unfold lowerEntry at hl
  rw [deref_some hx] at hl
  simp only [gbind_ok, ofR_ok, Except.ok.injEq, exists_eq_left'] at hl
  obtain ⟨ps, -, ds, -, xs, hxs, b, hb, hl⟩ := hl
  cases he with
  | mk hf ht hc hxf =>
    have i1 := lowerXforms_in hh _ hxf hw.transforms hi hxs
    split at hl
    · cases hl
    · cases hl
      refine ⟨i1, ?_⟩
      simp only
      unfold lowerBody at hb
      simp only [gbind_ok] at hb
      obtain ⟨c, hcl, hb⟩ := hb
      have i2 := lowerOpt_in hh hc hw.condition hi hcl
      split at hb
      · rename_i tag len its isEnum hxt
        simp only [gbind_ok] at hb
        obtain ⟨l, hlen, hb⟩ := hb
        rw [hxt] at ht
        have hwt := hw.type
        rw [hxt, WfTy] at hwt
        cases ht with
        | container q1 hf q2 q3 q4 hit q5 =>
          rename_i fl' items' cells'
          rw [DistinctField, DistinctTy] at hd
          rw [PadFreeField, PadFreeTy] at hp
          rw [q4, filed hd.1 hp.1] at hb
          have i3 := lowerOpt_in hh q1 hwt.1 hi hlen
          split at hb
          · cases hb
          · split at hb
            · simp only [gbind_ok] at hb
              obtain ⟨arms, harms, hb⟩ := hb
              cases hb
              exact ⟨i3, lowerArms_lexical hh m _ hit hd.2 hp.2 (hi.cons (by simp)) harms⟩
            · simp only [gbind_ok] at hb
              obtain ⟨fs, hfs, hb⟩ := hb
              cases hb
              exact ⟨i3, lowerItems_lexical hh m _ _ _ _ _ hit q5 hd.1 hd.2 hp.1 hp.2 hi hfs⟩
      · simp only [gbind_ok] at hb
        obtain ⟨r, -, hb⟩ := hb
        split at hb
        · split at hb
          · cases hb
          · cases hb; trivial
        · simp only [gbind_ok] at hb
          obtain ⟨ty, hty, hb⟩ := hb
          cases hb
          exact ⟨i2, lowerTy_in hh _ ht hw.type hi hty⟩

end Verif.Sem

namespace Verif.Props
open Verif Verif.Sem Verif.Enc Verif.RT

/-- C54 for types with default values: only fields that are in scope are mentioned. -/
theorem entries_in_scope_partial (env : Sem.Env) (he : EnvClosed env) (hm : PadFreeModules env) (n : Nat)
    (ast : Ast.Program) (hp : ∀ d ∈ ast, PadFreeDecl d) (p : Sem.Prog) (h : Heap) (loads : List String)
    (hc : convert env n ast = .ok (p, h, loads)) (oc : Bool) (m : Nat) (M : List Entry)
    (hl : lowerEntries oc h m p.types = .ok M) : ∀ d ∈ declsOf M, LexicalDecl d := by
  intro d hd
  obtain ⟨e, he', rfl⟩ := List.mem_map.1 hd
  obtain ⟨hh, -⟩ := (convert_tight he n ast).2 _ hc
  obtain ⟨id, x, h1, h2, h3, h4⟩ := lowerEntries_mem hl e he'
  rcases (convert_made hc).origin _ id h1 with ⟨y, t, hy, ht⟩ | ⟨text, q, k, args, f, ho, hq, hd, hg⟩
  · rw [h2] at hy
    cases hy
    exact absurd ht (h3 t)
  · obtain ⟨y, g1, g2, g3, g4, g5, g6, g7⟩ := made_declared hq hd hg
    refine lowerEntry_lexical hh g1 g4 g6.2 ?_ h4
    rcases ho with rfl | ⟨md, ho⟩
    · exact (hp _ hd).2
    · exact (hm _ _ ho _ hd).2

theorem text_entries_in_scope_partial (modules : List (String × Text)) (src : String) (M : List Entry)
    (hs : moduleOf modules src = some M) (hp : noPadText (ascii src) = true)
    (hm : ∀ x ∈ modules, noPadText x.2 = true) : ∀ d ∈ declsOf M, LexicalDecl d := by
  unfold moduleOf at hs
  unfold noPadText at hp
  split at hs
  · cases hs
  · rename_i ast hparse
    rw [hparse] at hp
    split at hs
    · cases hs
    · rename_i p h loads hc
      split at hs
      · cases hs
      · rename_i M' hl
        cases hs
        refine entries_in_scope_partial _ (textEnv_closed modules) ?_ 3 ast
          (fun d hd => noPadDecl_sound (List.all_eq_true.1 hp d hd)) p h loads hc true 9 M hl
        intro name a ha d hd
        simp only [textEnv, Except.ok.injEq, Option.map_eq_some_iff] at ha
        obtain ⟨text, h1, h2⟩ := ha
        have h3 := hm _ (IMap.get_mem h1)
        unfold noPadText at h3
        cases hp : parse text with
        | error e => rw [hp] at h2; cases h2
        | ok b =>
          rw [hp] at h2 h3
          cases h2
          exact noPadDecl_sound (List.all_eq_true.1 h3 d hd)

/-- C78. Whatever the generated encoder writes for a value, with some parameters left out, the generated decoder reads
that value back from it, if the parameters that it is called with, left out or not, get the same values. -/
theorem defaults_round_trip_partial (modules : List (String × Text)) (src : String) (M : List Entry)
    (hs : moduleOf modules src = some M) (hp : noPadText (ascii src) = true)
    (hm : ∀ x ∈ modules, noPadText x.2 = true) (hM : legalModule M = true)
    (LE : Lib) (LD : Dec.Lib) (C : Closed) (ext : String → List Val → Val → Prop) (hi : Inverse LE LD C ext)
    (hin : schemaIn C (declsOf M) = true) (fuel : Nat) (type : String) (e : Entry) (hf : findEntry M type = some e)
    (given given' : List (Option Val)) (vals : List Val)
    (h1 : FilledIn LE.oc e.decl.params e.defaults given vals) (h2 : FilledIn LE.oc e.decl.params e.defaults given' vals)
    (v : Val) (bs : Bytes) (hv : Fitting (declsOf M) LE C ext fuel type vals v)
    (he : encodeEntry M LE fuel type given v = .ok bs) (tail : Bytes) (ht : C.decl type = true ∨ tail = []) :
    decodeEntry M LD fuel type given' (bs ++ tail) = .ok (v, tail) := by
  rw [(encode_left_out M hM LE fuel type e hf given v).1 vals h1] at he
  rw [(decode_left_out M hM LD fuel type e hf given' (bs ++ tail)).1 vals (hi.oc ▸ h2)]
  exact decode_after_encode (declsOf M) LE LD C ext hi
    (schema_wf (text_entries_in_scope_partial modules src M hs hp hm) hin) fuel type vals v bs hv he tail ht

/-- With `m` left out, a list of `n + 1` bytes comes back, whether the decoder is given `m` or not. -/
theorem sized_round_trip (n : Nat) (hn : n < 255) (data : List Val) (hd : ∀ x ∈ data, HasPrim (.scalar ⟨.u8, .big⟩) x)
    (hl : data.length = n + 1) (bs : Bytes)
    (he : encodeEntry sizedModule noEncLib 1 "a" [some (vu8 n), none] (.newtype "a" (.arr data)) = .ok bs) (tail : Bytes) :
    decodeEntry sizedModule noLib 1 "a" [some (vu8 n), none] (bs ++ tail) = .ok (.newtype "a" (.arr data), tail) ∧
    decodeEntry sizedModule noLib 1 "a" [some (vu8 n), some (vu8 (n + 1))] (bs ++ tail) = .ok (.newtype "a" (.arr data), tail) := by
  have h1 := sized_filled n hn
  have h2 : FilledIn true ["n", "m"] [none, some (.binary .add (.inputRef "n") (.int ⟨.u8, 1⟩))]
      [some (vu8 n), some (vu8 (n + 1))] [vu8 n, vu8 (n + 1)] := filled_passed (vals := [vu8 n, vu8 (n + 1)]) true rfl rfl
  have hfit : Fitting (declsOf sizedModule) noEncLib openEnds (fun _ _ _ => False) 1 "a" [vu8 n, vu8 (n + 1)] (.newtype "a" (.arr data)) := by
    intro d hd'
    cases hd'
    refine ⟨_, rfl, ?_⟩
    simp only [FitsLeaf, LTy.resolved]
    exact ⟨_, rfl, hd, by simp [Prim.size, Scalar.size]; omega⟩
  have key := fun given' h2 => defaults_round_trip_partial [] sizedText sizedModule sized_module.1 sized_module.2.1 (by simp)
    sized_module.2.2 noEncLib noLib openEnds (fun _ _ _ => False) noLib_inverse (by decide +kernel) 1 "a" _ rfl _ given' _ h1 h2 _
    bs hfit he tail (.inl rfl)
  exact ⟨key _ h1, key _ h2⟩

example : encodeEntry sizedModule noEncLib 1 "a" [some (vu8 2), none] (.newtype "a" (.arr [vu8 7, vu8 8, vu8 9])) = .ok [7, 8, 9] := by
  decide +kernel

end Verif.Props
