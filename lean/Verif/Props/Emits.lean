import Verif.Sem.Lower
import Verif.Sem.Types
/-!
# C39, C48, C52: for which expressions code is generated

Exactly when the generators give code for a cast and for a call of `len`, `blen` or `sum`, and for which kind of cast and which size they do (`compiler/expr.rs`, `prelude/len.rs`, `prelude/blen.rs`,
`prelude/sum.rs`).
-/
namespace Verif.Props
open Verif Verif.Sem

/-- Spec: the number of bytes of the integer types. -/
def bytesOfKind : Scalar → Nat
  | .u8 | .i8 => 1
  | .u16 | .i16 => 2
  | .u32 | .i32 => 4
  | .u64 | .i64 => 8
  | .u128 | .i128 => 16

/-- Spec: the fixed size of the values of a type, references followed. Arrays and foreign types have none, containers are refused. -/
inductive FixedSize : AType → Option Nat → Prop
  | enum {tag n rep items} : FixedSize (.enum tag n rep items) (some (bytesOfKind rep.scalar))
  | bitfield {tag n rep items} : FixedSize (.bitfield tag n rep items) (some (bytesOfKind rep.scalar))
  | scalar {s} : FixedSize (.scalar s) (some (bytesOfKind s.scalar))
  | f32 : FixedSize .f32 (some 4)
  | f64 : FixedSize .f64 (some 8)
  | bool : FixedSize .bool (some 1)
  | array {tag el x len} : FixedSize (.array tag el x len) none
  | foreign {n} : FixedSize (.foreign n) none

/-- Spec: a type that can be written inside an expression: not a container, not a bitfield, and no array of these. Enums are written by their names. -/
inductive TypeSpelt : AType → Prop
  | enum {tag n rep items} : TypeSpelt (.enum tag n rep items)
  | scalar {s} : TypeSpelt (.scalar s)
  | f32 : TypeSpelt .f32
  | f64 : TypeSpelt .f64
  | bool : TypeSpelt .bool
  | array {tag el x len} : TypeSpelt el → TypeSpelt (.array tag el x len)
  | foreign {n} : TypeSpelt (.foreign n)
  | ref {f args} : TypeSpelt (.ref f args)

/-- Spec: how a value of a type is cast: enums by their number, bitfields by their bits, others by `as`. -/
inductive CastBy : AType → CastSrc → Prop
  | enum {tag n rep items} : CastBy (.enum tag n rep items) .enum_
  | bitfield {tag n rep items} : CastBy (.bitfield tag n rep items) .bitfield
  | plain {t} : (∀ tag n rep items, t ≠ .enum tag n rep items) → (∀ tag n rep items, t ≠ .bitfield tag n rep items) → CastBy t .plain

theorem size_bytes (k : Scalar) : k.size = bytesOfKind k := by cases k <;> rfl

theorem emit_bind_ok {α β : Type} {x : G α} {f : α → G β} {b : β} : x.bind f = .ok b ↔ ∃ a, x = .ok a ∧ f a = .ok b := by
  cases x <;> simp [Except.bind]

theorem emit_bind_ok' {α β : Type} {x : G α} {f : α → G β} {b : β} : (x >>= f) = .ok b ↔ ∃ a, x = .ok a ∧ f a = .ok b := emit_bind_ok

theorem ofR_iff {α : Type} {r : R α} {a : α} : ofR r = .ok a ↔ r = .ok a := by
  cases r with
  | ok b => simp [ofR]
  | error e => cases e <;> simp [ofR]

theorem typeSpelt_iff : ∀ t : AType, emitsType t = true ↔ TypeSpelt t := by
  intro t
  constructor
  · intro h
    induction t using emitsType.induct with
    | case1 => simp [emitsType] at h
    | case2 => simp [emitsType] at h
    | case3 tag el x len ih => rw [emitsType] at h; exact .array (ih h)
    | case4 t h1 h2 h3 =>
      cases t with
      | container => exact absurd rfl (h1 _ _ _ _)
      | bitfield => exact absurd rfl (h2 _ _ _ _)
      | array => exact absurd rfl (h3 _ _ _ _)
      | «enum» => exact .enum
      | scalar => exact .scalar
      | f32 => exact .f32
      | f64 => exact .f64
      | bool => exact .bool
      | foreign => exact .foreign
      | ref => exact .ref
  · intro h
    induction h with
    | array _ ih => rw [emitsType]; exact ih
    | _ => rfl

theorem typeOfG_iff {h : Heap} {e : AExpr} {t : AType} : typeOfG h e = .ok t ↔ getType h e = .ok (some t) := by
  unfold typeOfG
  rw [emit_bind_ok]
  constructor
  · rintro ⟨o, ho, hv⟩
    rw [ofR_iff] at ho
    cases o with
    | none => cases hv
    | some u => cases hv; exact ho
  · exact fun ho => ⟨_, ofR_iff.2 ho, rfl⟩

theorem lenSize_iff {h : Heap} {t : AType} {n : Option Nat} : lenSize h t = .ok n ↔ ∃ r, resolve h t = .ok r ∧ FixedSize r n := by
  unfold lenSize
  rw [emit_bind_ok]
  constructor
  · rintro ⟨r, hr, hv⟩
    refine ⟨r, ofR_iff.1 hr, ?_⟩
    have hne := resolve_not_ref (ofR_iff.1 hr)
    cases r <;> first | cases hv | skip
    all_goals first | exact .array | exact .foreign | exact .f32 | exact .f64 | exact .bool | (rw [size_bytes]; constructor; done) | exact absurd hne (by simp [AType.isRef])
  · rintro ⟨r, hr, hv⟩
    refine ⟨r, ofR_iff.2 hr, ?_⟩
    cases hv <;> simp [size_bytes]

/-- **C48, C52.** `len(a)` generates code exactly if `a` does and the type of `a` is known and, references followed, not a container; the size it has is that of the type, or the number of elements. -/
theorem len_call_iff {h : Heap} {ret : AType} {a : AExpr} {e : Expr} :
    lowerE h (.call "len" ret [a]) = .ok e ↔
      ∃ t r n a', getType h a = .ok (some t) ∧ resolve h t = .ok r ∧ FixedSize r n ∧ lowerE h a = .ok a' ∧ e = .len n a' := by
  rw [lowerE]
  simp only [emit_bind_ok', typeOfG_iff, lenSize_iff]
  constructor
  · rintro ⟨t, ht, n, ⟨r, hr, hn⟩, a', ha, he⟩
    cases he
    exact ⟨t, r, n, a', ht, hr, hn, ha, rfl⟩
  · rintro ⟨t, r, n, a', ht, hr, hn, ha, rfl⟩
    exact ⟨t, ht, n, ⟨r, hr, hn⟩, a', ha, rfl⟩

/-- **C09, C52.** `blen(a)` generates code exactly if `a` is a field. -/
theorem blen_call_iff {h : Heap} {ret : AType} {a : AExpr} {e : Expr} :
    lowerE h (.call "blen" ret [a]) = .ok e ↔ ∃ f x, a = .fieldRef f ∧ h[f]? = some x ∧ e = .blen x.name := by
  rw [lowerE]
  simp only [emit_bind_ok']
  constructor
  · rintro ⟨n, hn, he⟩
    cases he
    unfold blenTarget at hn
    split at hn
    · rename_i f
      cases hd : deref h f with
      | error er => cases er <;> simp [hd, ofR, Except.map] at hn
      | ok x =>
        simp only [hd, ofR, Except.map, Except.ok.injEq] at hn
        exact ⟨f, x, rfl, deref_ok.1 hd, by rw [hn]⟩
    · cases hn
  · rintro ⟨f, x, rfl, hx, rfl⟩
    exact ⟨x.name, by simp [blenTarget, deref_ok.2 hx, ofR, Except.map], rfl⟩

/-- **C48, C52.** `sum(a)` generates code exactly if `a` does and its type is literally an array of integers: not of floats, and not a reference to an array type. -/
theorem sum_call_iff {h : Heap} {ret : AType} {a : AExpr} {e : Expr} :
    lowerE h (.call "sum" ret [a]) = .ok e ↔
      ∃ tag s x len a', getType h a = .ok (some (.array tag (.scalar s) x len)) ∧ lowerE h a = .ok a' ∧ e = .sum a' := by
  rw [lowerE]
  simp only [emit_bind_ok', typeOfG_iff]
  constructor
  · rintro ⟨t, ht, a', ha, he⟩
    split at he
    · rename_i hs
      cases he
      unfold summable at hs
      split at hs
      · exact ⟨_, _, _, _, a', ht, ha, rfl⟩
      · cases hs
    · cases he
  · rintro ⟨tag, s, x, len, a', ht, ha, rfl⟩
    exact ⟨_, ht, a', ha, by simp [summable]⟩

/-- **C39, C52.** A cast generates code exactly if the value does, its type is known, and the target can be written; what is emitted depends on the type of the value, references followed, and on the
target as it is written: an integer type or another one. -/
theorem cast_iff {h : Heap} {a : AExpr} {to : AType} {e : Expr} :
    lowerE h (.cast a to) = .ok e ↔
      ∃ a' t r src k, lowerE h a = .ok a' ∧ getType h a = .ok (some t) ∧ resolve h t = .ok r ∧ CastBy r src ∧ TypeSpelt to ∧
        ((∃ s, to = .scalar s ∧ k = .scalar s.scalar) ∨ (∀ s, to ≠ .scalar s) ∧ k = .other) ∧ e = .cast src a' k := by
  have hsrc : ∀ src, castSource h a = .ok src ↔ ∃ t r, getType h a = .ok (some t) ∧ resolve h t = .ok r ∧ CastBy r src := by
    intro src
    unfold castSource
    simp only [emit_bind_ok, typeOfG_iff, ofR_iff]
    constructor
    · rintro ⟨t, ht, r, hr, hv⟩
      refine ⟨t, r, ht, hr, ?_⟩
      cases r <;> cases hv <;> first | exact .enum | exact .bitfield | exact .plain (by simp) (by simp)
    · rintro ⟨t, r, ht, hr, hv⟩
      refine ⟨t, ht, r, hr, ?_⟩
      cases hv with
      | «enum» => rfl
      | bitfield => rfl
      | plain h1 h2 =>
        cases r <;> first | rfl | exact absurd rfl (h1 _ _ _ _) | exact absurd rfl (h2 _ _ _ _)
  have hto : ∀ k, castTarget to = .ok k ↔ TypeSpelt to ∧ ((∃ s, to = .scalar s ∧ k = .scalar s.scalar) ∨ (∀ s, to ≠ .scalar s) ∧ k = .other) := by
    intro k
    unfold castTarget
    rw [← typeSpelt_iff]
    cases hw : emitsType to with
    | false => simp
    | true => cases to <;> simp [eq_comm]
  rw [lowerE]
  simp only [emit_bind_ok', hsrc, hto]
  constructor
  · rintro ⟨a', ha, k, ⟨hw, hk⟩, src, ⟨t, r, ht, hr, hs⟩, he⟩
    cases he
    exact ⟨a', t, r, src, k, ha, ht, hr, hs, hw, hk, rfl⟩
  · rintro ⟨a', t, r, src, k, ha, ht, hr, hs, hw, hk, rfl⟩
    exact ⟨a', ha, k, ⟨hw, hk⟩, src, ⟨t, r, ht, hr, hs⟩, rfl⟩

/-- Cases: `len` of a `u16` field is 2; `sum` of it is refused, and so is `blen` of a literal. -/
example : let x : AField := ⟨"x", [], .scalar ⟨.u16, .big⟩, none, none, [], false, false, false⟩
    lowerE [x] (.call "len" .bool [.fieldRef 0]) = .ok (.len (some 2) (.fieldRef "x")) ∧
    (∀ e, lowerE [x] (.call "sum" .bool [.fieldRef 0]) ≠ .ok e) ∧ ∀ e, lowerE [x] (.call "blen" .bool [.bool true]) ≠ .ok e := by
  refine ⟨len_call_iff.2 ⟨_, _, _, _, rfl, rfl, .scalar, rfl, rfl⟩, fun e h => ?_, fun e h => ?_⟩
  · obtain ⟨_, _, _, _, _, h, -⟩ := sum_call_iff.1 h
    cases h
  · obtain ⟨_, _, h, -⟩ := blen_call_iff.1 h
    cases h

end Verif.Props
