import Verif.RustTypes
/-!
# Which generated types rustc can lay out

`compiler/mod.rs` 135-167, 308-469: a reference to another type is written as the name of that type (326-329), an array as a `Vec`, a conditional field
as an `Option`; nothing is ever put into a `Box`. rustc computes the size of a struct from the sizes of its fields, so it refuses (E0072) a
type that holds itself other than behind a `Vec`.
-/
namespace Verif

/-- The types written in the declaration that is generated for a type (`compiler/mod.rs` 146-164, 333-403). Enums and bitfields hold
numbers only. -/
def declTypes (F : Sig) (d : Decl) : List RTy :=
  match d.body with
  | .leaf cond ty => [(ty.rust F).optional cond.isSome]
  | .repr _ => []
  | .struct _ items => (rustFields F false items).map (·.2)
  | .tagged _ arms => arms.flatMap fun a =>
      match a.body with
      | .leaf ty => [ty.rust F]
      | .cont _ items => (rustFields F false items).map (·.2)

/-- Spec: rustc can compute the size of the type. A `Vec` is a pointer, whatever it points to; the size of a declared type
needs the sizes of everything written in its declaration. Types from elsewhere (`String`, ..) have a size. -/
inductive Sized (F : Sig) (sch : Schema) : RTy → Prop
  | int {k} : Sized F sch (.int k)
  | bool : Sized F sch .bool
  | flt {d} : Sized F sch (.flt d)
  | str : Sized F sch .str
  | vec {t} : Sized F sch (.vec t)
  | opt {t} : Sized F sch t → Sized F sch (.opt t)
  | foreign {n} : sch.find n = none → Sized F sch (.named n)
  | named {n d} : sch.find n = some d → (∀ t ∈ declTypes F d, Sized F sch t) → Sized F sch (.named n)

/-- The declared type a value of a Rust type may hold in itself. -/
def RTy.inside : RTy → Option String
  | .opt t => t.inside
  | .named n => some n
  | _ => none

/-- Spec: values of `n` hold a value of `m`, not behind a pointer. -/
def HeldIn (F : Sig) (sch : Schema) (m n : String) : Prop :=
  ∃ d, sch.find n = some d ∧ (∃ t ∈ declTypes F d, t.inside = some m) ∧ (sch.find m).isSome = true

/-- One step or more of a relation. -/
inductive Plus {α} (R : α → α → Prop) : α → α → Prop
  | one {a b} : R a b → Plus R a b
  | more {a b c} : R a b → Plus R b c → Plus R a c

/-- The check. -/
def insideOf (F : Sig) (sch : Schema) (n : String) : List String :=
  match sch.find n with
  | some d => (declTypes F d).filterMap RTy.inside
  | none => []

/-- The names of the types whose size is known after `k` rounds. -/
def sizedAfter (F : Sig) (sch : Schema) : Nat → List String
  | 0 => []
  | k + 1 => (sch.map (·.name)).filter fun n => (insideOf F sch n).all fun m => decide (m ∈ sizedAfter F sch k) || (sch.find m).isNone

/-- rustc can lay out all types of the specification. -/
def finiteSizes (F : Sig) (sch : Schema) : Bool := (sch.map (·.name)).all fun n => decide (n ∈ sizedAfter F sch sch.length)

theorem sized_of_inside {F : Sig} {sch : Schema} : ∀ {t : RTy}, (∀ m, t.inside = some m → Sized F sch (.named m)) → Sized F sch t
  | .int _, _ => .int
  | .bool, _ => .bool
  | .flt _, _ => .flt
  | .str, _ => .str
  | .vec _, _ => .vec
  | .opt _, h => .opt (sized_of_inside h)
  | .named n, h => h n rfl

theorem sizedAfter_sized {F : Sig} {sch : Schema} : ∀ k n, n ∈ sizedAfter F sch k → Sized F sch (.named n) := by
  intro k
  induction k with
  | zero => intro n h; cases h
  | succ k ih =>
    intro n h
    obtain ⟨_, h⟩ := List.mem_filter.1 h
    cases hf : sch.find n with
    | none => exact .foreign hf
    | some d =>
      refine .named hf fun t ht => sized_of_inside fun m hm => ?_
      have hmem : m ∈ insideOf F sch n := by
        unfold insideOf
        rw [hf]
        exact List.mem_filterMap.2 ⟨t, ht, hm⟩
      have := List.all_eq_true.1 h m hmem
      rw [Bool.or_eq_true] at this
      rcases this with h1 | h1
      · exact ih m (of_decide_eq_true h1)
      · exact .foreign (by simpa using h1)

theorem inside_acc {F : Sig} {sch : Schema} {t : RTy} (h : Sized F sch t) : ∀ n, t.inside = some n → Acc (HeldIn F sch) n := by
  induction h with
  | int => intro n h; cases h
  | bool => intro n h; cases h
  | flt => intro n h; cases h
  | str => intro n h; cases h
  | vec => intro n h; cases h
  | opt _ ih => exact ih
  | foreign hf =>
    intro n h
    cases h
    refine ⟨_, fun m hm => ?_⟩
    obtain ⟨d, hd, _⟩ := hm
    rw [hf] at hd; cases hd
  | named hf _ ih =>
    intro n h
    cases h
    refine ⟨_, fun m hm => ?_⟩
    obtain ⟨d, hd, ⟨t, ht, hi⟩, _⟩ := hm
    rw [hf] at hd; cases hd
    exact ih t ht m hi

theorem Plus.tail {α} {R : α → α → Prop} {a b c : α} (h : Plus R a b) (hb : R b c) : Plus R a c := by
  induction h with
  | one h => exact .more h (.one hb)
  | more h _ ih => exact .more h (ih hb)

theorem acc_no_cycle {α} {R : α → α → Prop} {a : α} (h : Acc R a) : ¬ Plus R a a := by
  induction h with
  | intro a _ ih =>
    intro hp
    -- rotate the cycle by one step
    suffices ∃ b, R b a ∧ Plus R b b by obtain ⟨b, hb, hc⟩ := this; exact ih b hb hc
    suffices ∀ x y, Plus R x y → Plus R y x → ∃ b, R b y ∧ Plus R b b from this a a hp hp
    intro x y hxy hyx
    induction hxy with
    | one h => exact ⟨_, h, .more h hyx⟩
    | more h _ ih2 => exact ih2 (hyx.tail h)

theorem nodup_length_le {α} [DecidableEq α] : ∀ {l m : List α}, l.Nodup → (∀ x ∈ l, x ∈ m) → l.length ≤ m.length
  | [], m, _, _ => Nat.zero_le _
  | x :: l, m, hn, hs => by
    have hx : x ∈ m := hs x List.mem_cons_self
    obtain ⟨hx1, hn1⟩ := List.nodup_cons.1 hn
    have : l.length ≤ (m.erase x).length := nodup_length_le hn1 fun y hy => by
      have hne : y ≠ x := fun e => hx1 (e ▸ hy)
      exact (List.mem_erase_of_ne hne).2 (hs y (List.mem_cons_of_mem _ hy))
    rw [List.length_erase_of_mem hx] at this
    have := List.length_pos_iff.2 (List.ne_nil_of_mem hx)
    simp only [List.length_cons]
    omega

theorem find_name {sch : Schema} {n : String} (h : (sch.find n).isSome = true) : n ∈ sch.map (·.name) := by
  obtain ⟨d, hd⟩ := Option.isSome_iff_exists.1 h
  have := List.find?_some hd
  simp only [beq_iff_eq] at this
  exact List.mem_map.2 ⟨d, List.mem_of_find?_eq_some hd, this⟩

/-- A type whose size is not known after `k` rounds holds one, which holds one, and so on `k` times. -/
theorem unsized_path {F : Sig} {sch : Schema} : ∀ k n, n ∈ sch.map (·.name) → n ∉ sizedAfter F sch k →
    ∃ l : List String, l.length = k ∧ (∀ x ∈ l, x ∈ sch.map (·.name)) ∧ (∀ x ∈ l, Plus (HeldIn F sch) x n) ∧
      l.Pairwise fun a b => Plus (HeldIn F sch) b a := by
  intro k
  induction k with
  | zero => intro n _ _; exact ⟨[], rfl, fun _ h => (by cases h), fun _ h => (by cases h), .nil⟩
  | succ k ih =>
    intro n hn hk
    have hex : ∃ m ∈ insideOf F sch n, m ∉ sizedAfter F sch k ∧ (sch.find m).isSome = true := by
      refine Classical.byContradiction fun hc => hk ?_
      refine List.mem_filter.2 ⟨hn, List.all_eq_true.2 fun m hm => ?_⟩
      by_cases h1 : m ∈ sizedAfter F sch k
      · simp [h1]
      · cases h2 : sch.find m with
        | none => simp
        | some d => exact (hc ⟨m, hm, h1, by rw [h2]; rfl⟩).elim
    obtain ⟨m, hm, hmk, hms⟩ := hex
    have hheld : HeldIn F sch m n := by
      unfold insideOf at hm
      cases hf : sch.find n with
      | none => rw [hf] at hm; cases hm
      | some d =>
        rw [hf] at hm
        obtain ⟨t, ht, hi⟩ := List.mem_filterMap.1 hm
        exact ⟨d, hf, ⟨t, ht, hi⟩, hms⟩
    obtain ⟨l, hl, h1, h2, h3⟩ := ih m (find_name hms) hmk
    refine ⟨m :: l, by rw [List.length_cons, hl], ?_, ?_, ?_⟩
    · intro x hx
      rcases List.mem_cons.1 hx with rfl | hx
      · exact find_name hms
      · exact h1 x hx
    · intro x hx
      rcases List.mem_cons.1 hx with rfl | hx
      · exact .one hheld
      · exact (h2 x hx).tail hheld
    · exact .cons (fun x hx => h2 x hx) h3

theorem finiteSizes_of_acyclic {F : Sig} {sch : Schema} (h : ∀ n, ¬ Plus (HeldIn F sch) n n) : finiteSizes F sch = true := by
  refine List.all_eq_true.2 fun n hn => decide_eq_true (Classical.byContradiction fun hk => ?_)
  obtain ⟨l, hl, h1, h2, h3⟩ := unsized_path _ n hn hk
  have hnd : (n :: l).Nodup := by
    refine List.nodup_cons.2 ⟨fun hm => h n (h2 n hm), ?_⟩
    exact List.Pairwise.imp (S := fun a b => a ≠ b) (fun {a b} (hp : Plus (HeldIn F sch) b a) (he : a = b) => h b (by subst he; exact hp)) h3
  have := nodup_length_le hnd (m := sch.map (·.name)) fun x hx => by
    rcases List.mem_cons.1 hx with rfl | hx
    · exact hn
    · exact h1 x hx
  simp only [List.length_cons, List.length_map, hl] at this
  omega

end Verif
