import Verif.Defaults
import Verif.Props.Traits
import Verif.Props.Sizes
import Verif.Props.Flags
/-!
# C75: default values
-/
namespace Verif.Props
open Verif

/-- What a specification gives by construction: an enum or bitfield carries the name it is declared under, and the numbers of enums are of
their representation. -/
def NamedAndRanged (sch : Schema) : Prop :=
  ∀ d ∈ sch, ∀ t, d.body = .repr t → t.name = d.name ∧ ∀ n en, t = .enum n en → ∀ i x, (i, some x) ∈ en.items → en.rep.scalar.InRange x

theorem find_named {sch : Schema} {n : String} {d : Decl} (h : sch.find n = some d) : d.name = n := by
  simpa using List.find?_some h

mutual
/-- **C75 (a).** A default value is a value of the type. -/
theorem default_belongs (F : Sig) (sch : Schema) (hs : NamedAndRanged sch) :
    ∀ (t : RTy) (v : Val), IsDefault F sch t v → Belongs F sch true t v := by
  intro t v h
  cases h with
  | @int k => exact .int fun _ => by cases k <;> decide
  | bool => exact .bool
  | @flt d => exact .flt fun _ => by cases d <;> decide
  | str => exact .str
  | vec => exact .vec (by simp)
  | opt => exact .none
  | newtype h1 h2 h3 => exact .newtype h1 h2 (default_belongs F sch hs _ _ h3)
  | @enm n d m en i x rest h1 h2 h3 =>
    obtain ⟨hn, hr⟩ := hs d (find_mem h1) _ h2
    have : m = n := hn.trans (find_named h1)
    subst this
    refine .enm h1 h2 ?_ fun _ => hr _ en rfl i x (by rw [h3]; exact List.mem_cons_self)
    simp [EnumDecl.toRepr, h3, toReprArms]
  | @bits n d m bf h1 h2 =>
    have : m = n := (hs d (find_mem h1) _ h2).1.trans (find_named h1)
    subst this
    exact .bits h1 h2 fun _ => by cases bf.rep.scalar <;> decide
  | struct h1 h2 h3 => exact .struct h1 h2 (defaults_belong F sch hs _ _ h3)
  | variant h1 h2 h3 h4 => exact .variant h1 h2 List.mem_cons_self h3 (default_belongs F sch hs _ _ h4)
  | variantS h1 h2 h3 h4 => exact .variantS h1 h2 List.mem_cons_self h3 (defaults_belong F sch hs _ _ h4)
theorem defaults_belong (F : Sig) (sch : Schema) (hs : NamedAndRanged sch) :
    ∀ (ts : List (String × RTy)) (vs : List (String × Val)), AreDefaults F sch ts vs → HasFields F sch true ts vs := by
  intro ts vs h
  cases h with
  | nil => exact .nil
  | cons h1 h2 => exact .cons (default_belongs F sch hs _ _ h1) (defaults_belong F sch hs _ _ h2)
end

/-- The default value of a declared type, from its declaration. -/
def DefaultBy (F : Sig) (sch : Schema) (n : String) : Body → Val → Prop
  | .leaf cond ty, w => ∃ v, w = .newtype n v ∧ IsDefault F sch ((ty.rust F).optional cond.isSome) v
  | .repr (.enum _ en), w => ∃ i x rest, en.items = (i, some x) :: rest ∧ w = .enm n (.unit i) ⟨en.rep.scalar, x⟩
  | .repr (.bitfield _ bf), w => w = .bits n ⟨bf.rep.scalar, 0⟩
  | .struct _ items, w => ∃ fs, w = .struct n fs ∧ AreDefaults F sch (rustFields F false items) fs
  | .tagged _ arms, w => ∃ arm rest, arms = arm :: rest ∧
      ((∃ ty v, arm.body = .leaf ty ∧ w = .variant n arm.attr.name v ∧ IsDefault F sch (ty.rust F) v) ∨
       (∃ alen items fs, arm.body = .cont alen items ∧ w = .variantS n arm.attr.name fs ∧ AreDefaults F sch (rustFields F false items) fs))

theorem default_named_iff {F : Sig} {sch : Schema} {n : String} {w : Val} :
    IsDefault F sch (.named n) w ↔ ∃ d, sch.find n = some d ∧ DefaultBy F sch n d.body w := by
  constructor
  · intro h
    cases h with
    | newtype h1 h2 h3 => exact ⟨_, h1, by rw [h2]; exact ⟨_, rfl, h3⟩⟩
    | enm h1 h2 h3 => exact ⟨_, h1, by rw [h2]; exact ⟨_, _, _, h3, rfl⟩⟩
    | bits h1 h2 => exact ⟨_, h1, by rw [h2]; rfl⟩
    | struct h1 h2 h3 => exact ⟨_, h1, by rw [h2]; exact ⟨_, rfl, h3⟩⟩
    | variant h1 h2 h3 h4 => exact ⟨_, h1, by rw [h2]; exact ⟨_, _, rfl, .inl ⟨_, _, h3, rfl, h4⟩⟩⟩
    | variantS h1 h2 h3 h4 => exact ⟨_, h1, by rw [h2]; exact ⟨_, _, rfl, .inr ⟨_, _, _, h3, rfl, h4⟩⟩⟩
  · rintro ⟨d, h1, h⟩
    cases hb : d.body with
    | leaf cond ty => rw [hb] at h; obtain ⟨v, rfl, h⟩ := h; exact .newtype h1 hb h
    | repr t =>
      cases t with
      | enum m en => rw [hb] at h; obtain ⟨i, x, rest, h3, rfl⟩ := h; exact .enm h1 hb h3
      | bitfield m bf => rw [hb] at h; cases h; exact .bits h1 hb
    | struct len items => rw [hb] at h; obtain ⟨v, rfl, h⟩ := h; exact .struct h1 hb h
    | tagged len arms =>
      rw [hb] at h
      obtain ⟨arm, rest, rfl, ⟨ty, v, h3, rfl, h⟩ | ⟨alen, items, fs, h3, rfl, h⟩⟩ := h
      · exact .variant h1 hb h3 h
      · exact .variantS h1 hb h3 h

mutual
theorem default_unique {F : Sig} {sch : Schema} : ∀ {t : RTy} {v : Val}, IsDefault F sch t v → ∀ {w : Val}, IsDefault F sch t w → v = w := by
  intro t v h w hw
  cases h with
  | int => cases hw; rfl
  | bool => cases hw; rfl
  | flt => cases hw; rfl
  | str => cases hw; rfl
  | vec => cases hw; rfl
  | opt => cases hw; rfl
  | newtype h1 h2 h3 =>
    obtain ⟨d, g1, g⟩ := default_named_iff.1 hw
    rw [h1] at g1; cases g1
    rw [h2] at g
    obtain ⟨u, rfl, g⟩ := g
    rw [default_unique h3 g]
  | enm h1 h2 h3 =>
    obtain ⟨d, g1, g⟩ := default_named_iff.1 hw
    rw [h1] at g1; cases g1
    rw [h2] at g
    obtain ⟨i, x, rest, g, rfl⟩ := g
    rw [h3] at g; cases g; rfl
  | bits h1 h2 =>
    obtain ⟨d, g1, g⟩ := default_named_iff.1 hw
    rw [h1] at g1; cases g1
    rw [h2] at g
    exact g.symm
  | struct h1 h2 h3 =>
    obtain ⟨d, g1, g⟩ := default_named_iff.1 hw
    rw [h1] at g1; cases g1
    rw [h2] at g
    obtain ⟨u, rfl, g⟩ := g
    rw [defaults_unique h3 g]
  | variant h1 h2 h3 h4 =>
    obtain ⟨d, g1, g⟩ := default_named_iff.1 hw
    rw [h1] at g1; cases g1
    rw [h2] at g
    obtain ⟨arm, rest, e, g⟩ := g
    cases e
    rcases g with ⟨ty, u, g3, rfl, g⟩ | ⟨alen, items, fs, g3, rfl, g⟩
    · rw [h3] at g3; cases g3; rw [default_unique h4 g]
    · rw [h3] at g3; cases g3
  | variantS h1 h2 h3 h4 =>
    obtain ⟨d, g1, g⟩ := default_named_iff.1 hw
    rw [h1] at g1; cases g1
    rw [h2] at g
    obtain ⟨arm, rest, e, g⟩ := g
    cases e
    rcases g with ⟨ty, u, g3, rfl, g⟩ | ⟨alen, items, fs, g3, rfl, g⟩
    · rw [h3] at g3; cases g3
    · rw [h3] at g3; cases g3; rw [defaults_unique h4 g]
theorem defaults_unique {F : Sig} {sch : Schema} : ∀ {ts : List (String × RTy)} {vs : List (String × Val)}, AreDefaults F sch ts vs →
    ∀ {ws : List (String × Val)}, AreDefaults F sch ts ws → vs = ws := by
  intro ts vs h ws hw
  cases h with
  | nil => cases hw; rfl
  | cons h1 h2 =>
    cases hw with
    | cons g1 g2 => rw [default_unique h1 g1, defaults_unique h2 g2]
end

theorem defaults_exist {F : Sig} {sch : Schema} : ∀ {ts : List (String × RTy)}, (∀ t ∈ ts.map (·.2), ∃ v, IsDefault F sch t v) → ∃ vs, AreDefaults F sch ts vs
  | [], _ => ⟨[], .nil⟩
  | (n, t) :: ts, h => by
    obtain ⟨v, hv⟩ := h t (by simp)
    obtain ⟨vs, hvs⟩ := defaults_exist (ts := ts) fun u hu => h u (by simp only [List.map_cons, List.mem_cons]; exact .inr hu)
    exact ⟨_, .cons hv hvs⟩

/-- **C75 (b).** If rustc can lay out the types (C69), all written names are declared, and each enum has a first alternative that is a value (what rustc asks of the
`impl Default`s, C74), then `Default::default()` returns for every declared type; and it returns one value. -/
theorem default_exists (F : Sig) (sch : Schema) (hsz : finiteSizes F sch = true) (hnames : ∀ n, WrittenIn F sch (.named n) → (sch.find n).isSome = true)
    (hfirst : ∀ d ∈ sch, FirstIsValue d) (d : Decl) (hd : d ∈ sch) :
    ∃ v, IsDefault F sch (.named d.name) v ∧ ∀ w, IsDefault F sch (.named d.name) w → w = v := by
  have key : ∀ {t : RTy}, Sized F sch t → (∀ n, t = .named n → (sch.find n).isSome = true) → ∃ v, IsDefault F sch t v := by
    intro t h
    induction h with
    | int => exact fun _ => ⟨_, .int⟩
    | bool => exact fun _ => ⟨_, .bool⟩
    | flt => exact fun _ => ⟨_, .flt⟩
    | str => exact fun _ => ⟨_, .str⟩
    | vec => exact fun _ => ⟨_, .vec⟩
    | opt => exact fun _ => ⟨_, .opt⟩
    | foreign hf =>
      intro hn
      have := hn _ rfl
      rw [hf] at this; cases this
    | @named n d hf _ ih =>
      intro _
      have ih' : ∀ t ∈ declTypes F d, ∃ v, IsDefault F sch t v := fun t ht =>
        ih t ht fun m e => hnames m ⟨d, find_mem hf, t, ht, named_part e⟩
      have hv := hfirst d (find_mem hf)
      cases hb : d.body with
      | leaf cond ty =>
        obtain ⟨v, h⟩ := ih' ((ty.rust F).optional cond.isSome) (by simp [declTypes, hb])
        exact ⟨_, .newtype hf hb h⟩
      | repr r =>
        cases r with
        | enum m en =>
          obtain ⟨i, x, rest, h⟩ := hv.2 m en hb
          exact ⟨_, .enm hf hb h⟩
        | bitfield m bf => exact ⟨_, .bits hf hb⟩
      | struct len items =>
        obtain ⟨fs, h⟩ := defaults_exist (ts := rustFields F false items) fun t ht => ih' t (by simpa [declTypes, hb] using ht)
        exact ⟨_, .struct hf hb h⟩
      | tagged len arms =>
        cases arms with
        | nil => exact absurd rfl (hv.1 len [] hb)
        | cons arm rest =>
          cases ha : arm.body with
          | leaf ty =>
            obtain ⟨v, h⟩ := ih' (ty.rust F) (firstTypes_sub hb (ts := [ty.rust F]) (by simp [firstTypes, ha]) _ (by simp))
            exact ⟨_, .variant hf hb ha h⟩
          | cont alen items =>
            obtain ⟨fs, h⟩ := defaults_exist (ts := rustFields F false items) fun t ht =>
              ih' t (firstTypes_sub hb (ts := (rustFields F false items).map (·.2)) (by simp [firstTypes, ha]) t ht)
            exact ⟨_, .variantS hf hb ha h⟩
  have hsome : (sch.find d.name).isSome = true := by
    unfold Schema.find
    rw [List.find?_isSome]
    exact ⟨d, hd, by simp⟩
  obtain ⟨v, hv⟩ := key (every_written_type_sized F sch hsz (.named d.name)) (fun n e => by cases e; exact hsome)
  exact ⟨v, hv, fun w hw => default_unique hw hv⟩

/-- The encoders take default values: they never do with one what rustc rejects. -/
theorem default_encodes_without_ill (F : Sig) (sch : Schema) (hs : NamedAndRanged sch) (L : Enc.Lib) (hc : Enc.encChecks F sch L.oc = true)
    (hL : Enc.LibSafe F sch L) (fuel : Nat) (name : String) (d : Decl) (hf : sch.find name = some d)
    (hp : d.params.length = (F.params name).length) (args : List Val)
    (ha : ArgsTyped F sch (F.params name) args) (v : Val) (hv : IsDefault F sch (.named name) v) :
    Enc.runEncode sch L fuel name args v ≠ .error .ill :=
  checked_encoder_never_ill F sch L hc hL fuel name d hf hp args ha v ((default_belongs F sch hs _ _ hv).unranged)

/-- The default value of a bitfield has only flags that are declared (it has none), and the decoder accepts it. -/
theorem default_bitfield_accepted (bf : BitfieldDecl) : OnlyFlags bf 0 ∧ bf.fromRepr 0 = some 0 := by
  refine ⟨fun i _ h => (by rw [zero_bits] at h; cases h), ?_⟩
  have h0 : bf.and 0 (bf.compl bf.all) = 0 := by
    unfold BitfieldDecl.and
    cases bf.rep.scalar <;> simp [Scalar.toPat, Scalar.ofPat] <;> decide
  simp [BitfieldDecl.fromRepr, h0]

/-! ### Cases -/

theorem mapM_defaults {F : Sig} {sch : Schema} {f : RTy → Option Val} (hf : ∀ t v, f t = some v → IsDefault F sch t v) :
    ∀ (ts : List (String × RTy)) (vs : List (String × Val)), (ts.mapM fun p => (f p.2).map fun v => (p.1, v)) = some vs → AreDefaults F sch ts vs
  | [], vs, h => by
    simp only [List.mapM_nil] at h
    cases h; exact .nil
  | (n, t) :: ts, vs, h => by
    rw [List.mapM_cons] at h
    cases h1 : f t with
    | none => simp [h1] at h
    | some v =>
      simp only [h1, Option.map_some, Option.bind_eq_bind, Option.bind_some] at h
      cases h2 : (ts.mapM fun p => (f p.2).map fun v => (p.1, v)) with
      | none => simp [h2] at h
      | some ws =>
        simp only [h2, Option.bind_some, Option.pure_def, Option.some.injEq] at h
        subst h
        exact .cons (hf t v h1) (mapM_defaults hf ts ws h2)

/-- What is computed is the default value. -/
theorem defaultOf_default {F : Sig} {sch : Schema} : ∀ (fuel : Nat) (t : RTy) (v : Val), defaultOf F sch fuel t = some v → IsDefault F sch t v
  | 0, _, _, h => by cases h
  | fuel + 1, t, v, h => by
    have ih := @defaultOf_default F sch fuel
    cases t with
    | int k => cases h; exact .int
    | bool => cases h; exact .bool
    | flt d => cases h; exact .flt
    | str => cases h; exact .str
    | vec t => cases h; exact .vec
    | opt t => cases h; exact .opt
    | named n =>
      simp only [defaultOf] at h
      cases hf : sch.find n with
      | none => simp [hf] at h
      | some d =>
        simp only [hf] at h
        cases hb : d.body with
        | leaf cond ty =>
          simp only [hb, Option.map_eq_some_iff] at h
          obtain ⟨u, h1, rfl⟩ := h
          exact .newtype hf hb (ih _ _ h1)
        | repr r =>
          cases r with
          | enum m en =>
            simp only [hb] at h
            cases hi : en.items with
            | nil => simp [hi] at h
            | cons p rest =>
              obtain ⟨i, x⟩ := p
              cases x with
              | none => simp [hi] at h
              | some x =>
                simp only [hi, Option.some.injEq] at h
                subst h
                exact .enm hf hb hi
          | bitfield m bf =>
            simp only [hb, Option.some.injEq] at h
            subst h
            exact .bits hf hb
        | struct len items =>
          simp only [hb, Option.map_eq_some_iff] at h
          obtain ⟨u, h1, rfl⟩ := h
          exact .struct hf hb (mapM_defaults ih _ _ h1)
        | tagged len arms =>
          cases arms with
          | nil => simp [hb] at h
          | cons arm rest =>
            cases ha : arm.body with
            | leaf ty =>
              simp only [hb, ha, Option.map_eq_some_iff] at h
              obtain ⟨u, h1, rfl⟩ := h
              exact .variant hf hb ha (ih _ _ h1)
            | cont alen items =>
              simp only [hb, ha, Option.map_eq_some_iff] at h
              obtain ⟨u, h1, rfl⟩ := h
              exact .variantS hf hb ha (mapM_defaults ih _ _ h1)

/-- What becomes of the default value of a declared type in its encoder. -/
def defaultWire (src n : String) : Option (Res Bytes) :=
  (specOf [] src).bind fun sch => (defaultOf (ownSig []) sch 9 (.named n)).map fun v => Enc.specEncode sch noEncLib 9 n [] v

def wireIs (r : Option (Res Bytes)) (f : Res Bytes → Bool) : Bool :=
  match r with
  | some r => f r
  | none => false

def isBytes (bs : Bytes) : Res Bytes → Bool
  | .ok b => decide (b = bs)
  | _ => false

def isPanic : Res Bytes → Bool
  | .error .panic => true
  | .error .miscount => true
  | _ => false

def isErr : Res Bytes → Bool
  | .error (.err _) => true
  | _ => false

/-- Default values that can be sent: enums, bitfields, counted and unbounded arrays, a length that is calculated. -/
theorem default_wire_case :
    wireIs (defaultWire "type e = enum i32 { a = 7, b = default }; type f = bitfield u8 { x = 1, y = 2 }; type s = container { e: e, f: f, n: u8, d: u16[n], r: u8[..] };" "s")
      (isBytes [0, 0, 0, 7, 0, 0]) = true ∧
    wireIs (defaultWire "type s = container { n: u16 = blen(c) :> u16, c: container[n :> u64] { x: u8[..], y: u16 } };" "s") (isBytes [0, 2, 0, 0]) = true ∧
    wireIs (defaultWire "type s = container { n: u8, x: u8 { n > 0u8 } };" "s") (isBytes [0]) = true := by decide +kernel

/-- Finding: default values that cannot: an array of a fixed length is empty by default, and its encoder panics; a conditional field is absent by default, whatever the
condition says about the other defaults; and the first alternative of a tagged enum need not be the one that the condition chooses. -/
theorem default_wire_findings :
    wireIs (defaultWire "type s = u8[4];" "s") isPanic = true ∧
    wireIs (defaultWire "type s = container { n: u8, x: u8 { n == 0u8 } };" "s") isErr = true ∧
    wireIs (defaultWire "type s = container { n: u8, t: t(n) }; type t(n: u8) = container +tagged_enum { p: u8 { n > 0u8 }, q: u16 };" "s") isErr = true := by
  decide +kernel

/-- The hypotheses of `default_exists` hold of a specification with all kinds of declarations. -/
def defaultsCheck (src : String) : Bool :=
  match specOf [] src with
  | none => false
  | some sch => finiteSizes (ownSig []) sch &&
    sch.all (fun d => (declTypes (ownSig []) d).all fun t => (rtyParts t).all fun u => match u with | .named n => (sch.find n).isSome | _ => true) &&
    sch.all fun d => match d.body with
      | .tagged _ [] => false
      | .repr (.enum _ en) => match en.items with
        | (_, some _) :: _ => true
        | _ => false
      | _ => true

theorem defaults_case : defaultsCheck "type e = enum i32 { a = 1, b = default }; type f = bitfield u8 { x = 1, y = 2 }; type s = container { e: e, f: f, n: u8, t: t(n)[n] { n > 0u8 } }; type t(n: u8) = container +tagged_enum { p: u8 { n > 0u8 }, q: container { s: s[..] } }; type k = s[2];" = true := by decide +kernel

end Verif.Props
