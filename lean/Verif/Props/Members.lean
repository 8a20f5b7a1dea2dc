import Verif.Sem.Dups
/-!
# C40: what `Type::name` and `value.name` stand for

Exactly when a variant or flag can be named, and which one it is (`convert/expression/enum_access.rs`, `convert/expression/member.rs`).
-/
namespace Verif.Props
open Verif Verif.Sem

/-- Spec: the first item of an enum or a bitfield with the name `v` is an item with a value. -/
inductive Offers : AType → String → AConst → Prop
  | variant {tag name rep before c after v} : (∀ y ∈ before, AVariant.name y ≠ v) → c.name = v → Offers (.enum tag name rep (before ++ .value c :: after)) v c
  | flag {tag name rep before c after v} : (∀ y ∈ before, AConst.name y ≠ v) → c.name = v → Offers (.bitfield tag name rep (before ++ c :: after)) v c

/-- Spec: the type is a bitfield. -/
def IsBitfield (t : AType) : Prop := ∃ tag name rep items, t = .bitfield tag name rep items

theorem find_first {α : Type} {p : α → Bool} {l : List α} {x : α} :
    l.find? p = some x ↔ ∃ before after, l = before ++ x :: after ∧ p x = true ∧ ∀ y ∈ before, p y = false := by
  rw [List.find?_eq_some_iff_append]
  constructor
  · rintro ⟨hp, as, bs, rfl, h⟩
    exact ⟨as, bs, rfl, hp, fun y hy => by simpa using h y hy⟩
  · rintro ⟨as, bs, rfl, hp, h⟩
    exact ⟨hp, as, bs, rfl, fun y hy => by simpa using h y hy⟩

theorem findFlag_iff {items : List AConst} {v : String} {c : AConst} {tag : Nat} {name : String} {rep : EScalar} :
    findFlag items v = some c ↔ Offers (.bitfield tag name rep items) v c := by
  unfold findFlag
  rw [find_first]
  constructor
  · rintro ⟨before, after, rfl, hc, hb⟩
    exact .flag (fun y hy => by simpa using hb y hy) (by simpa using hc)
  · intro h
    generalize ht : AType.bitfield tag name rep items = t at h
    cases h with
    | variant => cases ht
    | flag hb hc => cases ht; exact ⟨_, _, rfl, by simpa using hc, fun y hy => by simpa using hb y hy⟩

theorem findVariant_iff {items : List AVariant} {v : String} {c : AConst} {tag : Nat} {name : String} {rep : EScalar} :
    findVariant items v = some (.value c) ↔ Offers (.enum tag name rep items) v c := by
  unfold findVariant
  rw [find_first]
  constructor
  · rintro ⟨before, after, rfl, hc, hb⟩
    exact .variant (fun y hy => by simpa using hb y hy) (of_decide_eq_true hc)
  · intro h
    generalize ht : AType.enum tag name rep items = t at h
    cases h with
    | flag => cases ht
    | variant hb hc => cases ht; exact ⟨_, _, rfl, decide_eq_true hc, fun y hy => by simpa using hb y hy⟩

/-- **C40.** `n::v` is accepted exactly if the type `n` is declared or imported, its declaration itself (not one that it refers to) is an enum or bitfield, and has an item `v` with a value; it stands
for that item of that type, and nothing is changed. -/
theorem access_iff {p : Prog} {n v : String} {s s' : St} {e : AExpr} :
    convEnumAccess p n v s = .ok (e, s') ↔
      s' = s ∧ ∃ f x c, IMap.get p.types n = some f ∧ s.heap[f]? = some x ∧ Offers x.type v c ∧ e = .enumAccess f c := by
  unfold convEnumAccess
  rw [withHeap_ok]
  unfold enumAccessR
  cases hg : IMap.get p.types n with
  | none => simp
  | some f =>
    simp only [rbind_ok, deref_ok]
    constructor
    · rintro ⟨⟨x, hx, hv⟩, rfl⟩
      refine ⟨rfl, f, x, ?_⟩
      split at hv
      · rename_i he
        split at hv
        · cases hv
        · rename_i c hc
          cases hv
          exact ⟨c, rfl, hx, he ▸ findVariant_iff.1 hc, rfl⟩
        · cases hv
      · rename_i he
        split at hv
        · cases hv
        · rename_i c hc
          cases hv
          exact ⟨c, rfl, hx, he ▸ findFlag_iff.1 hc, rfl⟩
      · cases hv
    · rintro ⟨rfl, f', x, c, hf, hx, ho, rfl⟩
      cases hf
      refine ⟨⟨x, hx, ?_⟩, rfl⟩
      revert ho
      cases x.type with
      | «enum» tag name rep items => intro ho; simp only [findVariant_iff.2 ho]
      | bitfield tag name rep items => intro ho; simp only [findFlag_iff.2 ho]
      | _ => intro ho; cases ho

/-- **C40.** `e.m` is accepted exactly if the type of `e` is known and is, references followed, a bitfield with a flag `m`; it stands for that flag of the value. -/
theorem member_iff {t : AExpr} {m : String} {s s' : St} {e : AExpr} :
    convMember t m s = .ok (e, s') ↔
      s' = s ∧ ∃ ty r c, getType s.heap t = .ok (some ty) ∧ resolve s.heap ty = .ok r ∧ IsBitfield r ∧ Offers r m c ∧ e = .member t c := by
  unfold convMember
  rw [withHeap_ok]
  unfold convMemberR
  simp only [rbind_ok]
  constructor
  · rintro ⟨⟨o, ho, hv⟩, rfl⟩
    refine ⟨rfl, ?_⟩
    split at hv
    · cases hv
    · rename_i ty
      rw [rbind_ok] at hv
      obtain ⟨r, hr, hv⟩ := hv
      split at hv
      · split at hv
        · rename_i c hc
          cases hv
          exact ⟨ty, _, c, ho, hr, ⟨_, _, _, _, rfl⟩, findFlag_iff.1 hc, rfl⟩
        · cases hv
      · cases hv
  · rintro ⟨rfl, ty, r, c, ho, hr, ⟨tag, name, rep, items, rfl⟩, hc, rfl⟩
    refine ⟨⟨_, ho, ?_⟩, rfl⟩
    simp only [rbind_ok]
    exact ⟨_, hr, by simp only [findFlag_iff.2 hc]⟩

/-- Which item a name stands for is determined. -/
theorem offers_unique {t : AType} {v : String} {c d : AConst} (hc : Offers t v c) (hd : Offers t v d) : c = d := by
  cases t with
  | «enum» tag name rep items =>
    have a := findVariant_iff.2 hc
    rw [findVariant_iff.2 hd] at a
    cases a
    rfl
  | bitfield tag name rep items =>
    have a := findFlag_iff.2 hc
    rw [findFlag_iff.2 hd] at a
    cases a
    rfl
  | _ => cases hc

/-- **C40** (finding). The variants of an enum cannot be named through another name of it: `type a = e;` gives no `a::v`. -/
theorem alias_access_refused {p : Prog} {n v : String} {s : St} {f g : FId} {x : AField} {args : List AExpr} (hn : IMap.get p.types n = some f) (hx : s.heap[f]? = some x)
    (ht : x.type = .ref g args) : ∀ r, convEnumAccess p n v s ≠ .ok r := by
  rintro ⟨e, s'⟩ h
  obtain ⟨-, f', x', c, hf, hx', ho, -⟩ := access_iff.1 h
  rw [hn] at hf
  cases hf
  rw [hx] at hx'
  cases hx'
  rw [ht] at ho
  cases ho

/-- Cases: `E::b` of `enum u8 { a = 1, b = 2, c = default }` is the second variant; `E::c` is refused, and so is `A::b` of an alias `A`. -/
example : ∃ (p : Prog) (s : St) (c : AConst), convEnumAccess p "E" "b" s = .ok (.enumAccess 0 c, s) ∧ c.name = "b" ∧
    (∀ r, convEnumAccess p "E" "c" s ≠ .ok r) ∧ ∀ r, convEnumAccess p "A" "b" s ≠ .ok r := by
  let u8 : EScalar := ⟨.u8, .big⟩
  let a : AConst := .mk "a" (.scalar u8) (.int ⟨.u8, 1⟩ .u8)
  let b : AConst := .mk "b" (.scalar u8) (.int ⟨.u8, 2⟩ .u8)
  let E : AType := .enum 0 "E" u8 [.value a, .value b, .default "c"]
  let s : St := ⟨[⟨"E", [], E, none, none, [], true, false, false⟩, ⟨"A", [], .ref 0 [], none, none, [], true, false, false⟩], 1⟩
  let p : Prog := ⟨[("E", 0), ("A", 1)], [], [], []⟩
  refine ⟨p, s, b, access_iff.2 ⟨rfl, 0, _, b, rfl, rfl, .variant (before := [.value a]) (by simp [AVariant.name, AConst.name, a, b]) (rfl : b.name = "b"), rfl⟩, rfl, ?_, alias_access_refused (f := 1) (g := 0) rfl rfl rfl⟩
  rintro ⟨e, s'⟩ h
  obtain ⟨-, f', x', c, hf, hx', ho, -⟩ := access_iff.1 h
  cases hf
  cases hx'
  have := findVariant_iff.2 ho
  cases this

end Verif.Props
