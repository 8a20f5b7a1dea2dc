import Verif.Props.Encode
import Verif.Flags
/-!
# C68: bitfield values made with the functions of their type
-/
namespace Verif.Props
open Verif

theorem bitfield_xor_bits (d : BitfieldDecl) (a b : Int) (i : Nat) (hi : i < d.rep.scalar.bits) :
    bitAt (d.xor a b) i = (bitAt a i ^^ bitAt b i) := by
  have hl := Nat.xor_lt_two_pow (Scalar.toPat_lt d.rep.scalar a) (Scalar.toPat_lt d.rep.scalar b)
  unfold BitfieldDecl.xor
  rw [bitAt_ofPat _ _ hl i hi, Nat.testBit_xor, testBit_toPat _ _ _ hi, testBit_toPat _ _ _ hi]

theorem zero_bits (i : Nat) : bitAt 0 i = false := by simp [bitAt]

/-- Spec: every bit of the number belongs to a flag. -/
def OnlyFlags (d : BitfieldDecl) (x : Int) : Prop :=
  ∀ i < d.rep.scalar.bits, bitAt x i = true → ∃ p ∈ d.flags, bitAt p.2 i = true

/-- Spec: a flag of one bit, number `i`. -/
def OneBit (d : BitfieldDecl) (f : Int) (i : Nat) : Prop :=
  i < d.rep.scalar.bits ∧ ∀ j < d.rep.scalar.bits, bitAt f j = true ↔ j = i

theorem run_onlyFlags (d : BitfieldDecl) (hf : ∀ p ∈ d.flags, d.rep.scalar.InRange p.2) (p : FlagProg) (hp : p.Plain d) (x : Int)
    (h : p.run d = some x) : d.rep.scalar.InRange x ∧ OnlyFlags d x := by
  have hz : d.rep.scalar.InRange 0 := by cases d.rep.scalar <;> decide
  have hfl : ∀ n f, d.flag n = some f → ∃ p ∈ d.flags, p.2 = f := by
    intro n f hn
    obtain ⟨q, hq, he⟩ := Option.map_eq_some_iff.1 hn
    exact ⟨q, List.mem_of_find?_eq_some hq, he⟩
  induction p generalizing x with
  | zero => cases h; exact ⟨hz, fun i _ hb => by rw [zero_bits] at hb; cases hb⟩
  | dflt => cases h; exact ⟨hz, fun i _ hb => by rw [zero_bits] at hb; cases hb⟩
  | all =>
    cases h
    refine ⟨?_, fun i hi hb => (bitfield_all_bits d i hi).1 hb⟩
    unfold BitfieldDecl.all
    suffices ∀ (l : List (String × Int)) (acc : Int), d.rep.scalar.InRange acc →
        d.rep.scalar.InRange (l.foldl (fun acc p => d.or acc p.2) acc) from this _ _ hz
    intro l
    induction l with
    | nil => intro acc h; exact h
    | cons q l ih => intro acc _; exact ih _ (Scalar.ofPat_inRange _ _)
  | flag n =>
    obtain ⟨q, hq, rfl⟩ := hfl n x h
    exact ⟨hf q hq, fun i _ hb => ⟨q, hq, hb⟩⟩
  | decoded raw =>
    have he := (bitfield_accepts d raw).2 x h
    subst he
    exact ⟨hp, (bitfield_accepts d x).1.1 ⟨_, h⟩⟩
  | or a b iha ihb =>
    obtain ⟨u, hu, h⟩ := Option.bind_eq_some_iff.1 h
    obtain ⟨v, hv, h⟩ := Option.bind_eq_some_iff.1 h
    cases h
    refine ⟨Scalar.ofPat_inRange _ _, fun i hi hb => ?_⟩
    rw [bitfield_or_bits d u v i hi, Bool.or_eq_true] at hb
    exact hb.elim ((iha hp.1 u hu).2 i hi) ((ihb hp.2 v hv).2 i hi)
  | and a b iha ihb =>
    obtain ⟨u, hu, h⟩ := Option.bind_eq_some_iff.1 h
    obtain ⟨v, hv, h⟩ := Option.bind_eq_some_iff.1 h
    cases h
    refine ⟨Scalar.ofPat_inRange _ _, fun i hi hb => ?_⟩
    rw [bitfield_and_bits d u v i hi, Bool.and_eq_true] at hb
    exact (iha hp.1 u hu).2 i hi hb.1
  | xor a b iha ihb =>
    obtain ⟨u, hu, h⟩ := Option.bind_eq_some_iff.1 h
    obtain ⟨v, hv, h⟩ := Option.bind_eq_some_iff.1 h
    cases h
    refine ⟨Scalar.ofPat_inRange _ _, fun i hi hb => ?_⟩
    rw [bitfield_xor_bits d u v i hi] at hb
    cases h1 : bitAt u i with
    | true => exact (iha hp.1 u hu).2 i hi h1
    | false =>
      rw [h1, Bool.false_xor] at hb
      exact (ihb hp.2 v hv).2 i hi hb
  | set a n iha =>
    obtain ⟨u, hu, h⟩ := Option.bind_eq_some_iff.1 h
    obtain ⟨f, hn, h⟩ := Option.bind_eq_some_iff.1 h
    cases h
    refine ⟨Scalar.ofPat_inRange _ _, fun i hi hb => ?_⟩
    obtain ⟨q, hq, rfl⟩ := hfl n f hn
    have hb : bitAt (d.or u q.2) i = true := hb
    rw [bitfield_or_bits d u _ i hi, Bool.or_eq_true] at hb
    exact hb.elim ((iha hp u hu).2 i hi) fun h => ⟨q, hq, h⟩
  | not a => exact hp.elim

/-- **C68.** Whatever a program does with the constants, setters and operators `|`, `&`, `^` of a generated bitfield type and with values it decoded:
the value it gets is encoded, and the decoder accepts the bytes and returns the same value. -/
theorem flag_programs_round_trip (n : String) (d : BitfieldDecl) (hf : ∀ p ∈ d.flags, d.rep.scalar.InRange p.2) (p : FlagProg) (hp : p.Plain d)
    (x : Int) (h : p.run d = some x) (rest : Bytes) :
    ∃ raw, encRepr (.bitfield n d) (.bits n ⟨d.rep.scalar, x⟩) = .ok raw ∧
      decRepr (.bitfield n d) (raw ++ rest) = .ok (.bits n ⟨d.rep.scalar, x⟩, rest) := by
  obtain ⟨hr, ho⟩ := run_onlyFlags d hf p hp x h
  refine ⟨intBytes d.rep x, ?_, ?_⟩
  · unfold encRepr
    simp [reprOf, ReprTy.rep]
    rfl
  · have hx := bytesInt_intBytes d.rep x hr
    have := (bitfield_decodes n d (intBytes d.rep x) rest (intBytes_length _ _)).1
    rw [hx] at this
    exact this ho

/-- **C68, `!` is the exception.** The complement of a value the decoder accepts is accepted exactly if every bit of the representation belongs
to a flag. -/
theorem complement_accepted_iff (d : BitfieldDecl) (x : Int) (h : OnlyFlags d x) :
    (∃ y, d.fromRepr (d.compl x) = some y) ↔ ∀ i < d.rep.scalar.bits, ∃ p ∈ d.flags, bitAt p.2 i = true := by
  rw [(bitfield_accepts d _).1]
  constructor
  · intro hc i hi
    cases hb : bitAt x i with
    | true => exact h i hi hb
    | false => exact hc i hi (by rw [bitfield_not_bits d x i hi, hb]; rfl)
  · intro ha i hi _
    exact ha i hi

/-- Finding: `!Flags::A` is encoded without an error into bytes that the decoder refuses. -/
theorem complement_finding :
    let d : BitfieldDecl := ⟨⟨.u8, .little⟩, [("a", 1), ("b", 2)]⟩
    (FlagProg.not (.flag "a")).run d = some 254 ∧ d.fromRepr 254 = none ∧
    (FlagProg.and .all (.not (.flag "a"))).run d = some 2 ∧ d.fromRepr 2 = some 2 := by decide

/-- **C68, what the getters say.** For a flag of one bit the getter commutes with the operators: it is the Boolean function of the getters. For `|` this
holds for every flag. -/
theorem getters_and_operators (d : BitfieldDecl) (x y f : Int) (i : Nat) (hf : OneBit d f i) :
    d.get (d.or x y) f = (d.get x f || d.get y f) ∧
    d.get (d.and x y) f = (d.get x f && d.get y f) ∧
    d.get (d.xor x y) f = (d.get x f ^^ d.get y f) ∧
    d.get (d.compl x) f = !d.get x f ∧
    d.get 0 f = false ∧ ((∃ p ∈ d.flags, p.2 = f) → d.get d.all f = true) := by
  have hg : ∀ z, d.get z f = bitAt z i := by
    intro z
    rw [Bool.eq_iff_iff, bitfield_getter]
    constructor
    · rintro ⟨j, hj, h1, h2⟩
      rw [← (hf.2 j hj).1 h2]; exact h1
    · intro h
      exact ⟨i, hf.1, h, (hf.2 i hf.1).2 rfl⟩
  simp only [hg, bitfield_or_bits d _ _ i hf.1, bitfield_and_bits d _ _ i hf.1, bitfield_xor_bits d _ _ i hf.1, bitfield_not_bits d _ i hf.1, zero_bits,
    true_and]
  rintro ⟨p, hp, rfl⟩
  exact (bitfield_all_bits d i hf.1).2 ⟨p, hp, (hf.2 i hf.1).2 rfl⟩

theorem getter_of_or (d : BitfieldDecl) (x y f : Int) : d.get (d.or x y) f = (d.get x f || d.get y f) := by
  rw [Bool.eq_iff_iff, Bool.or_eq_true, bitfield_getter, bitfield_getter, bitfield_getter]
  constructor
  · rintro ⟨i, hi, h1, h2⟩
    rw [bitfield_or_bits d x y i hi, Bool.or_eq_true] at h1
    exact h1.imp (fun h => ⟨i, hi, h, h2⟩) fun h => ⟨i, hi, h, h2⟩
  · rintro (⟨i, hi, h1, h2⟩ | ⟨i, hi, h1, h2⟩)
    · exact ⟨i, hi, by rw [bitfield_or_bits d x y i hi, h1]; rfl, h2⟩
    · exact ⟨i, hi, by rw [bitfield_or_bits d x y i hi, h1]; simp, h2⟩

/-- **C68, histories.** After any sequence of setter calls on any value, a getter says true exactly if it said so before or one of the flags
that were set shares a bit with it. -/
theorem getters_after_setters (d : BitfieldDecl) (x g : Int) (fs : List Int) :
    d.get (setAll d x fs) g = true ↔ d.get x g = true ∨ ∃ f ∈ fs, d.get f g = true := by
  induction fs generalizing x with
  | nil => simp [setAll]
  | cons f fs ih =>
    have : d.get (d.set x f) g = (d.get x g || d.get f g) := getter_of_or d x f g
    simp only [setAll, ih, this, Bool.or_eq_true, List.mem_cons, exists_eq_or_imp, or_assoc]

/-- If no two flags share a bit and none is empty, the getters that say true after setting flags on the empty value are those of the flags that were
set, in whatever order and however often. -/
theorem flags_set_are_flags_read (d : BitfieldDecl) (fs : List (String × Int)) (hs : ∀ p ∈ fs, p ∈ d.flags)
    (hne : ∀ p ∈ d.flags, ∃ i < d.rep.scalar.bits, bitAt p.2 i = true)
    (hd : ∀ p ∈ d.flags, ∀ q ∈ d.flags, p ≠ q → ∀ i < d.rep.scalar.bits, ¬ (bitAt p.2 i = true ∧ bitAt q.2 i = true))
    (q : String × Int) (hq : q ∈ d.flags) :
    d.get (setAll d 0 (fs.map (·.2))) q.2 = true ↔ q ∈ fs := by
  rw [getters_after_setters]
  have h0 : d.get 0 q.2 ≠ true := by
    intro h
    obtain ⟨i, _, h, _⟩ := (bitfield_getter _ _ _).1 h
    rw [zero_bits] at h; cases h
  constructor
  · rintro (h | ⟨f, hf, h⟩)
    · exact (h0 h).elim
    · obtain ⟨p, hp, rfl⟩ := List.mem_map.1 hf
      obtain ⟨i, hi, h1, h2⟩ := (bitfield_getter _ _ _).1 h
      by_cases he : p = q
      · exact he ▸ hp
      · exact (hd p (hs p hp) q hq he i hi ⟨h1, h2⟩).elim
  · intro h
    obtain ⟨i, hi, hb⟩ := hne q hq
    exact .inr ⟨q.2, List.mem_map.2 ⟨q, h, rfl⟩, (bitfield_getter _ _ _).2 ⟨i, hi, hb, hb⟩⟩

/-! ### Cases -/

/-- `bitfield : u8 { a = 1, b = 2, c = 12 }` -/
def demoFlags : BitfieldDecl := ⟨⟨.u8, .little⟩, [("a", 1), ("b", 2), ("c", 12)]⟩

example : ∀ p ∈ demoFlags.flags, demoFlags.rep.scalar.InRange p.2 := by decide
example : (FlagProg.set (.xor (.or (.flag "a") (.decoded 6)) .all) "b").run demoFlags = some 10 := by decide
example : (FlagProg.set (.xor (.or (.flag "a") (.decoded 6)) .all) "b").Plain demoFlags := by
  simp [FlagProg.Plain, demoFlags]; decide
example : OneBit demoFlags 2 1 := by
  refine ⟨by decide, ?_⟩
  decide
example : OnlyFlags demoFlags 10 := (bitfield_accepts demoFlags 10).1.1 ⟨10, by decide⟩
example : ∀ p ∈ demoFlags.flags, ∀ q ∈ demoFlags.flags, p ≠ q → ∀ i < demoFlags.rep.scalar.bits, ¬ (bitAt p.2 i = true ∧ bitAt q.2 i = true) := by
  decide
example : setAll demoFlags 0 [12, 1, 12] = 13 ∧ demoFlags.get 13 2 = false ∧ demoFlags.get 13 12 = true := by decide

/-- With flags that share bits, `&` is not the conjunction of the getters. -/
example : demoFlags.get (demoFlags.and 4 8) 12 = false ∧ (demoFlags.get 4 12 && demoFlags.get 8 12) = true := by decide

end Verif.Props
