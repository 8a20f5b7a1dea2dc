import Verif.Derives
/-!
# C47: derive lists are canonical
-/
namespace Verif.Props
open Verif

/-- Strictly before, in the order of bytes: at the first difference the smaller byte, or a proper
prefix. -/
def BeforeText (a b : Text) : Prop :=
  ∃ p, (∃ x xs, a = p ∧ b = p ++ x :: xs) ∨
    ∃ x y xs ys, a = p ++ x :: xs ∧ b = p ++ y :: ys ∧ x < y

theorem leText_refl (a : Text) : leText a a = true := by
  induction a with
  | nil => rfl
  | cons x a ih => simp [leText, ih]

theorem leText_total (a b : Text) : leText a b = true ∨ leText b a = true := by
  induction a generalizing b with
  | nil => exact .inl rfl
  | cons x a ih =>
    cases b with
    | nil => exact .inr rfl
    | cons y b =>
      simp only [leText, Bool.or_eq_true, decide_eq_true_eq, Bool.and_eq_true, beq_iff_eq]
      rcases Nat.lt_trichotomy x.toNat y.toNat with h | h | h
      · exact .inl (.inl h)
      · have : x = y := UInt8.toNat_inj.1 h
        subst this
        rcases ih b with h | h
        · exact .inl (.inr ⟨rfl, h⟩)
        · exact .inr (.inr ⟨rfl, h⟩)
      · exact .inr (.inl h)

theorem leText_trans (a b c : Text) (h1 : leText a b = true) (h2 : leText b c = true) :
    leText a c = true := by
  induction a generalizing b c with
  | nil => rfl
  | cons x a ih =>
    cases b with
    | nil => cases h1
    | cons y b =>
      cases c with
      | nil => cases h2
      | cons z c =>
        simp only [leText, Bool.or_eq_true, decide_eq_true_eq, Bool.and_eq_true, beq_iff_eq] at *
        rcases h1 with h1 | ⟨rfl, h1⟩ <;> rcases h2 with h2 | ⟨rfl, h2⟩
        · exact .inl (UInt8.lt_trans h1 h2)
        · exact .inl h1
        · exact .inl h2
        · exact .inr ⟨rfl, ih _ _ h1 h2⟩

theorem leText_antisymm {a b : Text} (h1 : leText a b = true) (h2 : leText b a = true) : a = b := by
  induction a generalizing b with
  | nil => cases b with
    | nil => rfl
    | cons y b => cases h2
  | cons x a ih =>
    cases b with
    | nil => cases h1
    | cons y b =>
      simp only [leText, Bool.or_eq_true, decide_eq_true_eq, Bool.and_eq_true, beq_iff_eq] at *
      rcases h1 with h1 | ⟨rfl, h1⟩ <;> rcases h2 with h2 | ⟨h, h2⟩
      · exact absurd (UInt8.lt_trans h1 h2) (UInt8.lt_irrefl _)
      · subst h; exact absurd h1 (UInt8.lt_irrefl _)
      · exact absurd h2 (UInt8.lt_irrefl _)
      · rw [ih h1 h2]

theorem before_of_le {a b : Text} (h : leText a b = true) (hne : a ≠ b) : BeforeText a b := by
  induction a generalizing b with
  | nil =>
    cases b with
    | nil => exact absurd rfl hne
    | cons y b => exact ⟨[], .inl ⟨y, b, rfl, rfl⟩⟩
  | cons x a ih =>
    cases b with
    | nil => cases h
    | cons y b =>
      simp only [leText, Bool.or_eq_true, decide_eq_true_eq, Bool.and_eq_true, beq_iff_eq] at h
      rcases h with h | ⟨rfl, h⟩
      · exact ⟨[], .inr ⟨x, y, a, b, rfl, rfl, h⟩⟩
      · obtain ⟨p, hp⟩ := ih h (fun e => hne (by rw [e]))
        refine ⟨x :: p, ?_⟩
        rcases hp with ⟨z, zs, rfl, rfl⟩ | ⟨u, v, us, vs, rfl, rfl, huv⟩
        · exact .inl ⟨z, zs, rfl, rfl⟩
        · exact .inr ⟨u, v, us, vs, rfl, rfl, huv⟩

theorem le_of_before {a b : Text} (h : BeforeText a b) : leText a b = true ∧ a ≠ b := by
  obtain ⟨p, h⟩ := h
  induction p generalizing a b with
  | nil =>
    rcases h with ⟨x, xs, rfl, rfl⟩ | ⟨x, y, xs, ys, rfl, rfl, h⟩
    · exact ⟨rfl, by simp⟩
    · refine ⟨by simp [leText, h], ?_⟩
      intro e
      simp only [List.nil_append, List.cons.injEq] at e
      rw [e.1] at h
      exact UInt8.lt_irrefl _ h
  | cons z p ih =>
    rcases h with ⟨x, xs, rfl, rfl⟩ | ⟨x, y, xs, ys, rfl, rfl, h⟩
    · obtain ⟨h1, h2⟩ := ih (.inl ⟨x, xs, rfl, rfl⟩)
      exact ⟨by simpa [leText] using h1, by simp⟩
    · obtain ⟨h1, h2⟩ := ih (.inr ⟨x, y, xs, ys, rfl, rfl, h⟩)
      exact ⟨by simpa [leText] using h1, by simpa using h2⟩

theorem mem_dedup {x : Text} : ∀ {l : List Text}, x ∈ dedup l ↔ x ∈ l
  | [] => Iff.rfl
  | [a] => Iff.rfl
  | a :: b :: l => by
    unfold dedup
    split
    · rename_i h
      subst h
      rw [mem_dedup]; simp
    · rw [List.mem_cons, mem_dedup, List.mem_cons (b := a)]

theorem dedup_sorted : ∀ {l : List Text}, l.Pairwise (fun a b => leText a b = true) →
    (dedup l).Pairwise BeforeText
  | [], _ => .nil
  | [a], _ => by simp [dedup]
  | a :: b :: l, h => by
    unfold dedup
    rw [List.pairwise_cons] at h
    have ih := dedup_sorted h.2
    split
    · exact ih
    · rename_i hne
      rw [List.pairwise_cons]
      refine ⟨?_, ih⟩
      intro c hc
      rw [mem_dedup] at hc
      have hac := h.1 c hc
      refine before_of_le hac ?_
      rintro rfl
      rcases List.mem_cons.1 hc with rfl | hc
      · exact hne rfl
      · exact hne (leText_antisymm (h.1 b List.mem_cons_self) ((List.pairwise_cons.1 h.2).1 _ hc))

/-- A derive list: strictly increasing, so sorted and without repetition. -/
def Canonical (l : List Text) : Prop := l.Pairwise BeforeText

theorem canonical_nodup {l : List Text} (h : Canonical l) : l.Nodup :=
  h.imp fun h => (le_of_before h).2

theorem sortDedup_canonical (l : List Text) : Canonical (sortDedup l) ∧ ∀ x, x ∈ sortDedup l ↔ x ∈ l := by
  have hs : (l.mergeSort leText).Pairwise (fun a b => leText a b = true) :=
    List.pairwise_mergeSort leText_trans (fun a b => by
      rcases leText_total a b with h | h <;> simp [h]) l
  exact ⟨dedup_sorted hs, fun x => by
    unfold sortDedup; rw [mem_dedup, (List.mergeSort_perm l leText).mem_iff]⟩

/-- A canonical list is determined by its members. -/
theorem canonical_unique {l m : List Text} (hl : Canonical l) (hm : Canonical m)
    (h : ∀ x, x ∈ l ↔ x ∈ m) : l = m := by
  induction l generalizing m with
  | nil => cases m with
    | nil => rfl
    | cons b m => exact absurd ((h b).2 List.mem_cons_self) (by simp)
  | cons a l ih =>
    cases m with
    | nil => exact absurd ((h a).1 List.mem_cons_self) (by simp)
    | cons b m =>
      have hl' := List.pairwise_cons.1 hl
      have hm' := List.pairwise_cons.1 hm
      have hab : a = b := by
        rcases List.mem_cons.1 ((h a).1 List.mem_cons_self) with e | ha
        · exact e
        rcases List.mem_cons.1 ((h b).2 List.mem_cons_self) with e | hb
        · exact e.symm
        · exact leText_antisymm (le_of_before (hl'.1 b hb)).1 (le_of_before (hm'.1 a ha)).1
      subst hab
      rw [ih hl'.2 hm'.2]
      intro x
      have hx := h x
      simp only [List.mem_cons] at hx
      constructor
      · intro hxl
        rcases hx.1 (.inr hxl) with rfl | hxm
        · exact absurd (hl'.1 _ hxl) (fun hb => (le_of_before hb).2 rfl)
        · exact hxm
      · intro hxm
        rcases hx.2 (.inr hxm) with rfl | hxl
        · exact absurd (hm'.1 _ hxm) (fun hb => (le_of_before hb).2 rfl)
        · exact hxl

/-- C47 for structs: sorted, no repetition, exactly the requested and extra derives. -/
theorem struct_derives_canonical (options extra : List Text) :
    Canonical (structDerives options extra) ∧ (structDerives options extra).Nodup ∧
    ∀ x, x ∈ structDerives options extra ↔ x ∈ options ∨ x ∈ extra := by
  obtain ⟨h1, h2⟩ := sortDedup_canonical (options ++ extra)
  exact ⟨h1, canonical_nodup h1, fun x => by unfold structDerives; rw [h2, List.mem_append]⟩

/-- C47 for enums: the same without `Default`. -/
theorem enum_derives_canonical (options extra : List Text) :
    Canonical (enumDerives options extra) ∧ (enumDerives options extra).Nodup ∧
    ∀ x, x ∈ enumDerives options extra ↔ (x ∈ options ∨ x ∈ extra) ∧ x ≠ ascii "Default" := by
  obtain ⟨h1, h2⟩ := sortDedup_canonical ((options ++ extra).filter fun x => x ≠ ascii "Default")
  exact ⟨h1, canonical_nodup h1, fun x => by
    unfold enumDerives
    rw [h2, List.mem_filter, List.mem_append]; simp⟩

/-- C47: the order, and the number of times an option is given, do not matter. -/
theorem derives_order_irrelevant (options options' extra extra' : List Text)
    (h : ∀ x, (x ∈ options ∨ x ∈ extra) ↔ (x ∈ options' ∨ x ∈ extra')) :
    structDerives options extra = structDerives options' extra' ∧
    enumDerives options extra = enumDerives options' extra' := by
  obtain ⟨a1, -, a3⟩ := struct_derives_canonical options extra
  obtain ⟨b1, -, b3⟩ := struct_derives_canonical options' extra'
  obtain ⟨c1, -, c3⟩ := enum_derives_canonical options extra
  obtain ⟨d1, -, d3⟩ := enum_derives_canonical options' extra'
  exact ⟨canonical_unique a1 b1 fun x => by rw [a3, b3, h],
    canonical_unique c1 d1 fun x => by rw [c3, d3, h]⟩

theorem canonical_of {l : List Text} (h : l.Pairwise fun a b => leText a b = true ∧ a ≠ b) :
    Canonical l := h.imp fun h => before_of_le h.1 h.2

/-- The default options, for structs, and for enums, which are also made `Copy`. -/
example :
    structDerives [ascii "PartialEq", ascii "Debug", ascii "Clone", ascii "Default"] [] =
      [ascii "Clone", ascii "Debug", ascii "Default", ascii "PartialEq"] ∧
    enumDerives [ascii "PartialEq", ascii "Debug", ascii "Clone", ascii "Default"]
        [ascii "Clone", ascii "Copy"] =
      [ascii "Clone", ascii "Copy", ascii "Debug", ascii "PartialEq"] := by
  constructor
  · refine canonical_unique (struct_derives_canonical _ _).1 (canonical_of (by decide +kernel)) ?_
    intro x
    rw [(struct_derives_canonical _ _).2.2]
    simp only [List.mem_cons, List.not_mem_nil, or_false]
    constructor
    · rintro (h | h | h | h) <;> simp [h]
    · rintro (h | h | h | h) <;> simp [h]
  · refine canonical_unique (enum_derives_canonical _ _).1 (canonical_of (by decide +kernel)) ?_
    intro x
    rw [(enum_derives_canonical _ _).2.2]
    simp only [List.mem_cons, List.not_mem_nil, or_false]
    have h1 : ascii "Clone" ≠ ascii "Default" := by decide +kernel
    have h2 : ascii "Copy" ≠ ascii "Default" := by decide +kernel
    have h3 : ascii "Debug" ≠ ascii "Default" := by decide +kernel
    have h4 : ascii "PartialEq" ≠ ascii "Default" := by decide +kernel
    constructor
    · rintro ⟨(h | h | h | h) | (h | h), hd⟩ <;> simp_all
    · rintro (h | h | h | h) <;> simp [h, h1, h2, h3, h4]

end Verif.Props
