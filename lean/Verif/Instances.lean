import Verif.Readers
import Verif.Sizes
/-!
# For which reader types a generated decoder is compiled

`decode_sync<R: Read + BufRead>(reader: &mut R, ..)` (`compiler/mod.rs` 258) is a generic function, and rustc compiles one copy of it for each type `R` it is called
with. A function that calls itself with `Take<&mut R>` or with what a transform makes of `&mut R` needs copies for `R`, `Take<&mut R>`, `Take<&mut Take<&mut R>>` and so on, which
rustc refuses (recursion limit), whatever happens at run time.
-/
namespace Verif.Dec
open Verif

/-- The type `R` of the function called, if the type `R` of the caller is `ρ`. -/
def Rd.under : Rd → Rd → Rd
  | .own, ρ => ρ
  | .take r, ρ => .take (r.under ρ)
  | .xf n r, ρ => .xf n (r.under ρ)
  | .dyn, _ => .dyn
  | .cursor, _ => .cursor

/-- Spec: the copies of decoders that rustc needs if a program calls `start::decode_sync` with one reader type, called `own` here. -/
inductive Inst (A : Api) (sch : Schema) (start : String) : String → Rd → Prop
  | start : Inst A sch start start .own
  | step {n d m rd ρ} : Inst A sch start n ρ → sch.find n = some d → (Ask.call m, some rd) ∈ wants A d → Inst A sch start m (rd.under ρ)

/-! ## The check -/

/-- The type depends on the one of the caller. -/
def Rd.hasOwn : Rd → Bool
  | .own => true
  | .take r => r.hasOwn
  | .xf _ r => r.hasOwn
  | .dyn => false
  | .cursor => false

/-- The calls in the decoder of a type. -/
def callsOf (A : Api) (sch : Schema) (n : String) : List (String × Rd) :=
  match sch.find n with
  | none => []
  | some d => (wants A d).filterMap fun q => match q with | (.call m, some rd) => some (m, rd) | _ => none

/-- The types that a decoder calls with a reader that depends on its own. -/
def heirs (A : Api) (sch : Schema) (n : String) : List String := ((callsOf A sch n).filter fun p => p.2.hasOwn).map (·.1)

/-- From `n` one gets to `m` in `k` steps. -/
def gets {α} [DecidableEq α] (succ : α → List α) (m : α) : Nat → α → Bool
  | 0, n => decide (n = m)
  | k + 1, n => decide (n = m) || (succ n).any (gets succ m k)

/-- No decoder is called again, directly or not, by one that it calls with a reader made of its own. -/
def finiteInstances (A : Api) (sch : Schema) : Bool :=
  (sch.map (·.name)).all fun n => (callsOf A sch n).all fun p =>
    !(p.2.hasOwn && decide (p.2 ≠ .own)) || !gets (heirs A sch) n sch.length p.1

/-! ## Reachability -/

section
variable {α : Type} [DecidableEq α]

inductive Star (succ : α → List α) : α → α → Prop
  | refl {a} : Star succ a a
  | step {a b c} : b ∈ succ a → Star succ b c → Star succ a c

theorem gets_star {succ : α → List α} {m : α} : ∀ {k n}, gets succ m k n = true → Star succ n m
  | 0, n, h => by
    simp only [gets, decide_eq_true_eq] at h
    exact h ▸ .refl
  | k + 1, n, h => by
    simp only [gets, Bool.or_eq_true, decide_eq_true_eq, List.any_eq_true] at h
    rcases h with rfl | ⟨b, hb, h⟩
    · exact .refl
    · exact .step hb (gets_star h)

theorem gets_mono {succ : α → List α} {m : α} : ∀ {k n}, gets succ m k n = true → gets succ m (k + 1) n = true
  | 0, n, h => by
    simp only [gets, decide_eq_true_eq] at h
    simp [gets, h]
  | k + 1, n, h => by
    simp only [gets, Bool.or_eq_true, decide_eq_true_eq, List.any_eq_true] at h
    rw [gets, Bool.or_eq_true, decide_eq_true_eq, List.any_eq_true]
    exact h.imp id fun ⟨b, hb, h⟩ => ⟨b, hb, gets_mono h⟩

theorem gets_le {succ : α → List α} {m n : α} {k l : Nat} (h : k ≤ l) (hk : gets succ m k n = true) : gets succ m l n = true := by
  induction h with
  | refl => exact hk
  | step _ ih => exact gets_mono ih

/-- What is reached in `k + 1` steps but not in `k` is behind `k` others. -/
theorem gets_chain {succ : α → List α} {m : α} : ∀ {k n}, gets succ m (k + 1) n = true → gets succ m k n = false →
    ∃ l : List α, l.length = k + 1 ∧ l.Nodup ∧ (∀ x ∈ l, succ x ≠ []) ∧ ∀ x ∈ l, gets succ m (k + 1) x = true
  | k, n, h, hn => by
    have hne : n ≠ m := by
      rintro rfl
      cases k <;> simp [gets] at hn
    have h' := h
    simp only [gets, Bool.or_eq_true, decide_eq_true_eq, hne, false_or, List.any_eq_true] at h'
    obtain ⟨b, hb, hb'⟩ := h'
    have hs : succ n ≠ [] := fun e => by rw [e] at hb; cases hb
    match k, h, hn, hb' with
    | 0, h, hn, hb' =>
      exact ⟨[n], rfl, by simp, by simpa using hs, by simpa using h⟩
    | k + 1, h, hn, hb' =>
      have hb2 : gets succ m k b = false := by
        cases hc : gets succ m k b with
        | false => rfl
        | true =>
          have : gets succ m (k + 1) n = true := by
            rw [gets, Bool.or_eq_true, List.any_eq_true]
            exact .inr ⟨b, hb, hc⟩
          rw [this] at hn
          cases hn
      obtain ⟨l, h1, h2, h3, h4⟩ := gets_chain hb' hb2
      refine ⟨n :: l, by simp [h1], List.nodup_cons.2 ⟨fun hm => ?_, h2⟩, ?_, ?_⟩
      · rw [h4 n hm] at hn; cases hn
      · intro x hx
        rcases List.mem_cons.1 hx with rfl | hx
        · exact hs
        · exact h3 x hx
      · intro x hx
        rcases List.mem_cons.1 hx with rfl | hx
        · exact h
        · exact gets_mono (h4 x hx)

theorem star_gets {succ : α → List α} {V : List α} (hV : ∀ x, succ x ≠ [] → x ∈ V) {n m : α} (h : Star succ n m) :
    gets succ m V.length n = true := by
  have hk : ∃ k, gets succ m k n = true := by
    induction h with
    | refl => exact ⟨0, by simp [gets]⟩
    | step hb _ ih =>
      obtain ⟨k, hk⟩ := ih
      refine ⟨k + 1, ?_⟩
      rw [gets, Bool.or_eq_true, List.any_eq_true]
      exact .inr ⟨_, hb, hk⟩
  obtain ⟨k, hk⟩ := hk
  induction k with
  | zero => exact gets_le (Nat.zero_le _) hk
  | succ k ih =>
    cases hc : gets succ m k n with
    | true => exact ih hc
    | false =>
      obtain ⟨l, h1, h2, h3, -⟩ := gets_chain hk hc
      have := nodup_length_le h2 fun x hx => hV x (h3 x hx)
      exact gets_le (by omega) hk

theorem Star.trans {succ : α → List α} {a b c : α} (h : Star succ a b) (h2 : Star succ b c) : Star succ a c := by
  induction h with
  | refl => exact h2
  | step hb _ ih => exact .step hb (ih h2)
end

/-! ## Sizes of reader types -/

def Rd.size : Rd → Nat
  | .take r => r.size + 1
  | .xf _ r => r.size + 1
  | _ => 1

def Rd.names : Rd → List String
  | .take r => r.names
  | .xf n r => n :: r.names
  | _ => []

theorem Rd.under_size (r ρ : Rd) : (r.under ρ).size ≤ r.size + ρ.size := by
  induction r with
  | own => simp [Rd.under]
  | take r ih => simp only [Rd.under, Rd.size]; omega
  | xf n r ih => simp only [Rd.under, Rd.size]; omega
  | dyn => simp [Rd.under, Rd.size]
  | cursor => simp [Rd.under, Rd.size]

theorem Rd.under_noOwn {r : Rd} (h : r.hasOwn = false) (ρ : Rd) : r.under ρ = r := by
  induction r with
  | own => cases h
  | take r ih => rw [Rd.under, ih h]
  | xf n r ih => rw [Rd.under, ih h]
  | dyn => rfl
  | cursor => rfl

theorem Rd.under_hasOwn {r : Rd} (h : r.hasOwn = true) (ρ : Rd) : ρ.size ≤ (r.under ρ).size ∧ (r ≠ .own → ρ.size < (r.under ρ).size) := by
  induction r with
  | own => exact ⟨Nat.le_refl _, fun h => absurd rfl h⟩
  | take r ih => have := (ih h).1; simp only [Rd.under, Rd.size]; exact ⟨by omega, fun _ => by omega⟩
  | xf n r ih => have := (ih h).1; simp only [Rd.under, Rd.size]; exact ⟨by omega, fun _ => by omega⟩
  | dyn => cases h
  | cursor => cases h

theorem Rd.under_names (r ρ : Rd) : ∀ n ∈ (r.under ρ).names, n ∈ r.names ∨ n ∈ ρ.names := by
  induction r with
  | own => exact fun n h => .inr h
  | take r ih => exact ih
  | xf x r ih =>
    intro n h
    simp only [Rd.under, Rd.names, List.mem_cons] at h ⊢
    rcases h with rfl | h
    · exact .inl (.inl rfl)
    · exact (ih n h).imp .inr id
  | dyn => exact fun n h => .inl h
  | cursor => exact fun n h => .inl h

/-- The reader types of a size with transforms out of a list. -/
def rdsUpTo (X : List String) : Nat → List Rd
  | 0 => []
  | k + 1 => .own :: .dyn :: .cursor :: ((rdsUpTo X k).map .take ++ X.flatMap fun x => (rdsUpTo X k).map (.xf x))

theorem mem_rdsUpTo (X : List String) : ∀ (r : Rd) (k : Nat), r.size ≤ k → (∀ n ∈ r.names, n ∈ X) → r ∈ rdsUpTo X k
  | r, 0, h, _ => by cases r <;> simp [Rd.size] at h
  | .own, k + 1, _, _ => by simp [rdsUpTo]
  | .dyn, k + 1, _, _ => by simp [rdsUpTo]
  | .cursor, k + 1, _, _ => by simp [rdsUpTo]
  | .take r, k + 1, h, hn => by
    have := mem_rdsUpTo X r k (by simpa [Rd.size] using h) hn
    simp [rdsUpTo, this]
  | .xf x r, k + 1, h, hn => by
    have := mem_rdsUpTo X r k (by simpa [Rd.size] using h) fun n h => hn n (List.mem_cons_of_mem _ h)
    simp only [rdsUpTo, List.mem_cons, List.mem_append, List.mem_flatMap]
    exact .inr (.inr (.inr (.inr ⟨x, hn x (List.mem_cons_self ..), List.mem_map.2 ⟨r, this, rfl⟩⟩)))

/-! ## The check is right -/

variable {A : Api} {sch : Schema}

theorem mem_callsOf {n m : String} {rd : Rd} : (m, rd) ∈ callsOf A sch n ↔ ∃ d, sch.find n = some d ∧ (Ask.call m, some rd) ∈ wants A d := by
  unfold callsOf
  cases hf : sch.find n with
  | none => simp
  | some d =>
    simp only [List.mem_filterMap, Option.some.injEq]
    constructor
    · rintro ⟨⟨a, r⟩, hq, h⟩
      cases a with
      | call m' =>
        cases r with
        | none => cases h
        | some rd' =>
          simp only [Option.some.injEq, Prod.mk.injEq] at h
          obtain ⟨rfl, rfl⟩ := h
          exact ⟨d, rfl, hq⟩
      | read => cases h
      | look => cases h
      | foreign _ _ => cases h
      | wrap _ => cases h
    · rintro ⟨d', rfl, hq⟩
      exact ⟨_, hq, rfl⟩

theorem callsOf_declared {n : String} (h : callsOf A sch n ≠ []) : n ∈ sch.map (·.name) := by
  apply find_name
  unfold callsOf at h
  cases hf : sch.find n with
  | none => rw [hf] at h; exact absurd rfl h
  | some d => rfl

theorem heirs_declared {n : String} (h : heirs A sch n ≠ []) : n ∈ sch.map (·.name) :=
  callsOf_declared (A := A) fun e => h (by simp [heirs, e])

theorem mem_heirs {n m : String} : m ∈ heirs A sch n ↔ ∃ rd, (m, rd) ∈ callsOf A sch n ∧ rd.hasOwn = true := by
  simp only [heirs, List.mem_map, List.mem_filter]
  constructor
  · rintro ⟨⟨m', rd⟩, h, rfl⟩
    exact ⟨rd, h⟩
  · rintro ⟨rd, h⟩
    exact ⟨(m, rd), h, rfl⟩

/-- How many declared types one gets to. -/
def reachCount (A : Api) (sch : Schema) (n : String) : Nat := ((sch.map (·.name)).filter fun m => gets (heirs A sch) m sch.length n).length

theorem gets_iff {n m : String} : gets (heirs A sch) m sch.length n = true ↔ Star (heirs A sch) n m := by
  refine ⟨gets_star, fun h => ?_⟩
  have := star_gets (V := sch.map (·.name)) (fun x => heirs_declared) h
  rwa [List.length_map] at this

theorem filter_le {α} (p q : α → Bool) (h : ∀ x, p x = true → q x = true) : ∀ l : List α, (l.filter p).length ≤ (l.filter q).length
  | [] => Nat.le_refl _
  | x :: l => by
    have ih := filter_le p q h l
    by_cases hp : p x = true
    · rw [List.filter_cons_of_pos hp, List.filter_cons_of_pos (h x hp)]
      simpa using ih
    · rw [List.filter_cons_of_neg hp]
      by_cases hq : q x = true
      · rw [List.filter_cons_of_pos hq, List.length_cons]; omega
      · rw [List.filter_cons_of_neg hq]; exact ih

theorem filter_lt {α} (p q : α → Bool) (h : ∀ x, p x = true → q x = true) {y : α} (hp : p y = false) (hq : q y = true) :
    ∀ l : List α, y ∈ l → (l.filter p).length < (l.filter q).length
  | x :: l, hy => by
    rcases List.mem_cons.1 hy with rfl | hy
    · rw [List.filter_cons_of_neg (by simp [hp]), List.filter_cons_of_pos hq, List.length_cons]
      have := filter_le p q h l
      omega
    · have ih := filter_lt p q h hp hq l hy
      by_cases hp : p x = true
      · rw [List.filter_cons_of_pos hp, List.filter_cons_of_pos (h x hp)]
        simpa using ih
      · rw [List.filter_cons_of_neg hp]
        by_cases hq : q x = true
        · rw [List.filter_cons_of_pos hq, List.length_cons]; omega
        · rw [List.filter_cons_of_neg hq]; exact ih

theorem reachCount_heir {n m : String} (h : m ∈ heirs A sch n) : reachCount A sch m ≤ reachCount A sch n :=
  filter_le _ _ (fun _ hx => gets_iff.2 (.step h (gets_iff.1 hx))) _

theorem reachCount_lt {n m : String} (h : m ∈ heirs A sch n) (hn : gets (heirs A sch) n sch.length m = false) :
    reachCount A sch m < reachCount A sch n :=
  filter_lt (fun x => gets (heirs A sch) x sch.length m) (fun x => gets (heirs A sch) x sch.length n)
    (fun _ hx => gets_iff.2 (.step h (gets_iff.1 hx))) hn (gets_iff.2 .refl) _
    (heirs_declared (A := A) fun e => by rw [e] at h; cases h)

theorem reachCount_le (n : String) : reachCount A sch n ≤ sch.length := by
  have := List.length_filter_le (fun m => gets (heirs A sch) m sch.length n) (sch.map (·.name))
  rwa [List.length_map] at this

/-- All calls of a specification. -/
def allCalls (A : Api) (sch : Schema) : List (String × Rd) := (sch.map (·.name)).flatMap (callsOf A sch)

theorem exists_bound (l : List (String × Rd)) : ∃ G, ∀ p ∈ l, p.2.size ≤ G := by
  induction l with
  | nil => exact ⟨0, by simp⟩
  | cons p l ih =>
    obtain ⟨G, h⟩ := ih
    refine ⟨G + p.2.size, fun q hq => ?_⟩
    rcases List.mem_cons.1 hq with rfl | hq
    · omega
    · have := h q hq; omega

theorem finite_of_check (h : finiteInstances A sch = true) (start : String) : ∃ l : List (String × Rd), ∀ m ρ, Inst A sch start m ρ → (m, ρ) ∈ l := by
  obtain ⟨G, hG⟩ := exists_bound (allCalls A sch)
  have hcall : ∀ {n : String} {d : Decl} {m : String} {rd : Rd}, sch.find n = some d → (Ask.call m, some rd) ∈ wants A d → (m, rd) ∈ callsOf A sch n ∧ (m, rd) ∈ allCalls A sch := by
    intro n d m rd hf hq
    have h1 : (m, rd) ∈ callsOf A sch n := mem_callsOf.2 ⟨d, hf, hq⟩
    exact ⟨h1, List.mem_flatMap.2 ⟨n, callsOf_declared (A := A) (fun e => by rw [e] at h1; cases h1), h1⟩⟩
  have inv : ∀ m ρ, Inst A sch start m ρ → ρ.size + G * reachCount A sch m ≤ 1 + G + G * sch.length ∧
      (∀ x ∈ ρ.names, x ∈ (allCalls A sch).flatMap fun p => p.2.names) ∧ (m = start ∨ m ∈ (allCalls A sch).map (·.1)) := by
    intro m ρ hi
    induction hi with
    | start =>
      refine ⟨?_, by simp [Rd.names], .inl rfl⟩
      have := Nat.mul_le_mul_left G (reachCount_le (A := A) (sch := sch) start)
      simp only [Rd.size]
      omega
    | @step n d m rd ρ hi hf hq ih =>
      obtain ⟨h1, h2⟩ := hcall hf hq
      refine ⟨?_, fun x hx => ?_, .inr (List.mem_map.2 ⟨_, h2, rfl⟩)⟩
      · cases ho : rd.hasOwn with
        | false =>
          rw [Rd.under_noOwn ho]
          have a := hG _ h2
          have b := Nat.mul_le_mul_left G (reachCount_le (A := A) (sch := sch) m)
          simp only at a
          omega
        | true =>
          have hh : m ∈ heirs A sch n := mem_heirs.2 ⟨rd, h1, ho⟩
          by_cases hown : rd = .own
          · subst hown
            have a := Nat.mul_le_mul_left G (reachCount_heir hh)
            have b := ih.1
            simp only [Rd.under]
            omega
          · have hc := List.all_eq_true.1 (List.all_eq_true.1 h n (heirs_declared (A := A) fun e => by rw [e] at hh; cases hh)) _ h1
            simp only [ho, decide_eq_true (p := rd ≠ .own) hown, Bool.and_self, Bool.not_true, Bool.false_or, Bool.not_eq_true'] at hc
            have a := reachCount_lt hh hc
            have b := Nat.mul_le_mul_left G (Nat.succ_le_of_lt a)
            have c := hG _ h2
            have e := Rd.under_size rd ρ
            have f := ih.1
            rw [Nat.mul_succ] at b
            simp only at c
            omega
      · rcases Rd.under_names rd ρ x hx with hx | hx
        · exact List.mem_flatMap.2 ⟨_, h2, hx⟩
        · exact ih.2.1 x hx
  refine ⟨(start :: (allCalls A sch).map (·.1)).flatMap fun m => (rdsUpTo ((allCalls A sch).flatMap fun p => p.2.names) (1 + G + G * sch.length)).map fun ρ => (m, ρ),
    fun m ρ hi => ?_⟩
  obtain ⟨h1, h2, h3⟩ := inv m ρ hi
  refine List.mem_flatMap.2 ⟨m, List.mem_cons.2 h3, List.mem_map.2 ⟨ρ, mem_rdsUpTo _ ρ _ (by omega) h2, rfl⟩⟩

/-- Along calls with readers that depend on the caller's the type does not become smaller. -/
theorem inst_star {start n m : String} (h : Star (heirs A sch) n m) : ∀ ρ, Inst A sch start n ρ → ∃ ρ', Inst A sch start m ρ' ∧ ρ.size ≤ ρ'.size := by
  induction h with
  | refl => exact fun ρ h => ⟨ρ, h, Nat.le_refl _⟩
  | step hb _ ih =>
    intro ρ hi
    obtain ⟨rd, h1, h2⟩ := mem_heirs.1 hb
    obtain ⟨d, hf, hq⟩ := mem_callsOf.1 h1
    obtain ⟨ρ', h3, h4⟩ := ih _ (hi.step hf hq)
    exact ⟨ρ', h3, Nat.le_trans (Rd.under_hasOwn h2 ρ).1 h4⟩

theorem grows_iff {p q r : Bool} : (!(p && q) || !r) = false ↔ (p = true ∧ q = true) ∧ r = true := by
  cases p <;> cases q <;> cases r <;> simp

theorem infinite_of_check (h : finiteInstances A sch = false) : ∃ n ∈ sch.map (·.name), ∀ k, ∃ ρ, Inst A sch n n ρ ∧ k ≤ ρ.size := by
  simp only [finiteInstances, List.all_eq_false] at h
  obtain ⟨n, hn, h⟩ := h
  simp only [Bool.not_eq_true, List.all_eq_false] at h
  obtain ⟨⟨m, rd⟩, hc, h⟩ := h
  have ⟨⟨ho, hne⟩, hg⟩ := grows_iff.1 h
  refine ⟨n, hn, fun k => ?_⟩
  induction k with
  | zero => exact ⟨_, .start, Nat.zero_le _⟩
  | succ k ih =>
    obtain ⟨ρ, hi, hk⟩ := ih
    obtain ⟨d, hf, hq⟩ := mem_callsOf.1 hc
    obtain ⟨ρ', h3, h4⟩ := inst_star (gets_star hg) _ (hi.step hf hq)
    have : ρ.size < (rd.under ρ).size := (Rd.under_hasOwn ho ρ).2 (of_decide_eq_true hne)
    exact ⟨ρ', h3, by omega⟩

end Verif.Dec
