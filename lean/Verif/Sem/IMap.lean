import Verif.Sem.Convert
/-!
# Lemmas on insertion-ordered maps
-/
namespace Verif.Sem
open Verif

theorem IMap.get_insert {α} (m : List (String × α)) (k n : String) (v : α) :
    IMap.get (IMap.insert m k v) n = if k = n then some v else IMap.get m n := by
  induction m with
  | nil => rfl
  | cons x m ih =>
    obtain ⟨a, w⟩ := x
    simp only [IMap.insert]
    by_cases h1 : a = k
    · subst h1
      rw [if_pos rfl]
      simp only [IMap.get]
      split <;> rfl
    · rw [if_neg h1]
      simp only [IMap.get, ih]
      by_cases h2 : a = n
      · subst h2
        rw [if_pos rfl, if_neg (fun h => h1 h.symm), if_pos rfl]
      · rw [if_neg h2, if_neg h2]

theorem IMap.get_insert_self {α} (m : List (String × α)) (k : String) (v : α) :
    IMap.get (IMap.insert m k v) k = some v := by rw [IMap.get_insert, if_pos rfl]

theorem IMap.get_insert_ne {α} {m : List (String × α)} {k n : String} {v : α} (h : k ≠ n) :
    IMap.get (IMap.insert m k v) n = IMap.get m n := by rw [IMap.get_insert, if_neg h]

theorem IMap.get_none_iff {α} {m : List (String × α)} {n : String} :
    IMap.get m n = none ↔ n ∉ m.map Prod.fst := by
  induction m with
  | nil => simp [IMap.get]
  | cons x m ih =>
    obtain ⟨a, w⟩ := x
    simp only [IMap.get, List.map_cons, List.mem_cons, not_or]
    by_cases h : a = n
    · subst h; simp
    · rw [if_neg h, ih]; exact ⟨fun h' => ⟨fun e => h e.symm, h'⟩, fun h' => h'.2⟩

theorem IMap.isSome_iff {α} {m : List (String × α)} {n : String} :
    (IMap.get m n).isSome = true ↔ n ∈ m.map Prod.fst := by
  cases h : IMap.get m n with
  | none => rw [IMap.get_none_iff] at h; simp [h]
  | some v =>
    simp only [Option.isSome_some, true_iff]
    by_cases hm : n ∈ m.map Prod.fst
    · exact hm
    · rw [IMap.get_none_iff.2 hm] at h; cases h

theorem IMap.mem_of_get {α} {m : List (String × α)} {n : String} {v : α}
    (h : IMap.get m n = some v) : (n, v) ∈ m := by
  induction m with
  | nil => cases h
  | cons x m ih =>
    obtain ⟨a, w⟩ := x
    simp only [IMap.get] at h
    by_cases h1 : a = n
    · subst h1; rw [if_pos rfl] at h; cases h; exact List.mem_cons_self
    · rw [if_neg h1] at h; exact List.mem_cons_of_mem _ (ih h)

/-- The keys after an insertion. -/
theorem IMap.keys_insert {α} (m : List (String × α)) (k : String) (v : α) :
    (IMap.insert m k v).map Prod.fst =
      if k ∈ m.map Prod.fst then m.map Prod.fst else m.map Prod.fst ++ [k] := by
  induction m with
  | nil => rfl
  | cons x m ih =>
    obtain ⟨a, w⟩ := x
    simp only [IMap.insert]
    by_cases h1 : a = k
    · subst h1; rw [if_pos rfl]; simp
    · rw [if_neg h1, List.map_cons, ih]
      have : (k ∈ List.map Prod.fst ((a, w) :: m)) ↔ k ∈ List.map Prod.fst m := by
        simp only [List.map_cons, List.mem_cons]
        exact ⟨fun h => h.resolve_left (fun e => h1 e.symm), .inr⟩
      by_cases h2 : k ∈ List.map Prod.fst m
      · rw [if_pos h2, if_pos (this.2 h2)]; rfl
      · rw [if_neg h2, if_neg (fun h => h2 (this.1 h))]; rfl

theorem IMap.mem_keys_insert {α} {m : List (String × α)} {k n : String} {v : α} :
    n ∈ (IMap.insert m k v).map Prod.fst ↔ n = k ∨ n ∈ m.map Prod.fst := by
  rw [IMap.keys_insert]
  split
  · rename_i h; exact ⟨.inr, fun h' => h'.elim (fun e => e ▸ h) id⟩
  · simp [or_comm]

/-- Inserting a new key appends. -/
theorem IMap.insert_new {α} {m : List (String × α)} {k : String} {v : α}
    (h : IMap.get m k = none) : IMap.insert m k v = m ++ [(k, v)] := by
  induction m with
  | nil => rfl
  | cons x m ih =>
    obtain ⟨a, w⟩ := x
    simp only [IMap.get] at h
    by_cases h1 : a = k
    · subst h1; rw [if_pos rfl] at h; cases h
    · rw [if_neg h1] at h
      simp only [IMap.insert, if_neg h1, ih h, List.cons_append]

theorem IMap.nodup_insert {α} {m : List (String × α)} {k : String} {v : α}
    (h : (m.map Prod.fst).Nodup) : ((IMap.insert m k v).map Prod.fst).Nodup := by
  rw [IMap.keys_insert]
  split
  · exact h
  · rename_i hk
    rw [List.nodup_append]
    refine ⟨h, by simp, ?_⟩
    intro a ha b hb
    simp only [List.mem_singleton] at hb
    subst hb
    exact fun e => hk (e ▸ ha)

end Verif.Sem
