import Verif.Sem.Passes
import Verif.Sem.PreludeEnv
/-!
# C46: recursive types are flagged
-/
namespace Verif.Props
open Verif Sem

/-- The field is mentioned directly by the type: it is an item of the container, the target of the
reference, or mentioned by the element type of the array. -/
inductive Mentions : AType → FId → Prop
  | element {tg el x len f} : Mentions el f → Mentions (.array tg el x len) f
  | item {tg len items e n f} : (n, f) ∈ items → Mentions (.container tg len items e) f
  | target {f args} : Mentions (.ref f args) f

/-- The field is mentioned by the type, or by the type of a field so reached. -/
inductive ReachF (h : Heap) : AType → FId → Prop
  | here {t f} : Mentions t f → ReachF h t f
  | deeper {t f x g} : Mentions t f → h[f]? = some x → ReachF h x.type g → ReachF h t g

theorem ReachF.snoc {h : Heap} {t : AType} {f g : FId} {x : AField} (hr : ReachF h t f)
    (hx : h[f]? = some x) (hm : Mentions x.type g) : ReachF h t g := by
  induction hr with
  | here hm' => exact .deeper hm' hx (.here hm)
  | deeper hm' hx' _ ih => exact .deeper hm' hx' (ih hx)

/-- What visiting everything in `t` leaves behind. -/
structure Visited (h : Heap) (t : AType) (seen out : List String) : Prop where
  mono : ∀ m ∈ seen, m ∈ out
  all : ∀ f x, Mentions t f → h[f]? = some x → x.name ∈ out
  new : ∀ m ∈ out, m ∈ seen ∨ ∃ f x, ReachF h t f ∧ h[f]? = some x ∧ x.name = m ∧
    ∀ g y, Mentions x.type g → h[g]? = some y → y.name ∈ out

def FollowOk (h : Heap) (follow : AField → List String → R (List String)) : Prop :=
  ∀ x seen out, follow x seen = .ok out → Visited h x.type seen out

theorem visit_visited {h : Heap} {follow : AField → List String → R (List String)}
    (hf : FollowOk h follow) {f : FId} {seen out : List String}
    (hv : visit h follow f seen = .ok out) :
    (∀ m ∈ seen, m ∈ out) ∧ (∀ x, h[f]? = some x → x.name ∈ out) ∧
    ∀ m ∈ out, m ∈ seen ∨ ∃ g x, (g = f ∨ ∃ y, h[f]? = some y ∧ ReachF h y.type g) ∧
      h[g]? = some x ∧ x.name = m ∧ ∀ g' y, Mentions x.type g' → h[g']? = some y → y.name ∈ out := by
  unfold visit at hv
  rw [rbind_ok] at hv
  obtain ⟨x, hx, hv⟩ := hv
  rw [deref_ok] at hx
  split at hv
  · rename_i hin
    cases hv
    exact ⟨fun _ h => h, fun y hy => by rw [hx] at hy; cases hy; exact hin, fun m hm => .inl hm⟩
  · have v := hf _ _ _ hv
    refine ⟨fun m hm => v.mono m (List.mem_append_left _ hm),
      fun y hy => by rw [hx] at hy; cases hy; exact v.mono _ (by simp), ?_⟩
    intro m hm
    rcases v.new m hm with hs | ⟨g, y, hr, hy, hn, hcl⟩
    · rcases List.mem_append.1 hs with hs | hs
      · exact .inl hs
      · simp only [List.mem_singleton] at hs
        exact .inr ⟨f, x, .inl rfl, hx, hs.symm, fun g' y' hm' hy' => v.all g' y' hm' hy'⟩
    · exact .inr ⟨g, y, .inr ⟨x, hx, hr⟩, hy, hn, hcl⟩

theorem visitAll_visited {h : Heap} {follow : AField → List String → R (List String)}
    (hf : FollowOk h follow) {tg len e} :
    ∀ {items : List (String × FId)} {seen out : List String},
      visitAll h follow items seen = .ok out → Visited h (.container tg len items e) seen out := by
  intro items
  induction items with
  | nil =>
    intro seen out hv
    cases hv
    exact ⟨fun _ h => h, fun f x hm => by cases hm; contradiction, fun m hm => .inl hm⟩
  | cons i rest ih =>
    intro seen out hv
    obtain ⟨n, f⟩ := i
    simp only [visitAll, rbind_ok] at hv
    obtain ⟨mid, h1, h2⟩ := hv
    obtain ⟨a1, a2, a3⟩ := visit_visited hf h1
    have v := ih h2
    refine ⟨fun m hm => v.mono m (a1 m hm), ?_, ?_⟩
    · intro g x hm hx
      cases hm with
      | item hmem =>
        rcases List.mem_cons.1 hmem with he | hmem
        · cases he; exact v.mono _ (a2 x hx)
        · exact v.all g x (.item hmem) hx
    · intro m hm
      rcases v.new m hm with hs | ⟨g, x, hr, hx, hn, hcl⟩
      · rcases a3 m hs with hs | ⟨g, x, hg, hx, hn, hcl⟩
        · exact .inl hs
        · refine .inr ⟨g, x, ?_, hx, hn, fun g' y hm' hy => v.mono _ (hcl g' y hm' hy)⟩
          rcases hg with rfl | ⟨y, hy, hr⟩
          · exact .here (.item List.mem_cons_self)
          · exact .deeper (.item List.mem_cons_self) hy hr
      · refine .inr ⟨g, x, ?_, hx, hn, hcl⟩
        cases hr with
        | here hm' => cases hm' with
          | item hmem => exact .here (.item (List.mem_cons_of_mem _ hmem))
        | deeper hm' hx' hr' => cases hm' with
          | item hmem => exact .deeper (.item (List.mem_cons_of_mem _ hmem)) hx' hr'

theorem containedWith_visited {h : Heap} {follow : AField → List String → R (List String)}
    (hf : FollowOk h follow) : ∀ (t : AType) {seen out : List String},
      containedWith h follow t seen = .ok out → Visited h t seen out
  | .array tg el x len, seen, out, hv => by
    simp only [containedWith] at hv
    have v := containedWith_visited hf el hv
    refine ⟨v.mono, fun f y hm hy => ?_, fun m hm => ?_⟩
    · cases hm with
      | element hm => exact v.all f y hm hy
    · rcases v.new m hm with hs | ⟨g, y, hr, hy, hn, hcl⟩
      · exact .inl hs
      · refine .inr ⟨g, y, ?_, hy, hn, hcl⟩
        cases hr with
        | here hm' => exact .here (.element hm')
        | deeper hm' hx' hr' => exact .deeper (.element hm') hx' hr'
  | .container tg len items e, seen, out, hv => visitAll_visited hf hv
  | .ref f args, seen, out, hv => by
    simp only [containedWith] at hv
    obtain ⟨a1, a2, a3⟩ := visit_visited hf hv
    refine ⟨a1, fun g x hm hx => ?_, fun m hm => ?_⟩
    · cases hm; exact a2 x hx
    · rcases a3 m hm with hs | ⟨g, x, hg, hx, hn, hcl⟩
      · exact .inl hs
      · refine .inr ⟨g, x, ?_, hx, hn, hcl⟩
        rcases hg with rfl | ⟨y, hy, hr⟩
        · exact .here .target
        · exact .deeper .target hy hr
  | .enum .., seen, out, hv => by
    cases hv; exact ⟨fun _ h => h, fun f x hm => (by cases hm), fun m hm => .inl hm⟩
  | .bitfield .., seen, out, hv => by
    cases hv; exact ⟨fun _ h => h, fun f x hm => (by cases hm), fun m hm => .inl hm⟩
  | .scalar .., seen, out, hv => by
    cases hv; exact ⟨fun _ h => h, fun f x hm => (by cases hm), fun m hm => .inl hm⟩
  | .foreign .., seen, out, hv => by
    cases hv; exact ⟨fun _ h => h, fun f x hm => (by cases hm), fun m hm => .inl hm⟩
  | .f32, seen, out, hv => by
    cases hv; exact ⟨fun _ h => h, fun f x hm => (by cases hm), fun m hm => .inl hm⟩
  | .f64, seen, out, hv => by
    cases hv; exact ⟨fun _ h => h, fun f x hm => (by cases hm), fun m hm => .inl hm⟩
  | .bool, seen, out, hv => by
    cases hv; exact ⟨fun _ h => h, fun f x hm => (by cases hm), fun m hm => .inl hm⟩

theorem containedN_visited {h : Heap} : ∀ (n : Nat) (t : AType) {seen out : List String},
    containedN h n t seen = .ok out → Visited h t seen out := by
  intro n
  induction n with
  | zero =>
    intro t seen out hv
    exact containedWith_visited (fun x s o hx => by cases hx) t hv
  | succ n ih =>
    intro t seen out hv
    exact containedWith_visited (fun x s o hx => ih x.type hx) t hv

/-- Names found are names of fields that can be reached. -/
theorem contained_sound (h : Heap) (x : AField) (out : List String)
    (hc : contained h x = .ok out) (m : String) (hm : m ∈ out) :
    ∃ f y, ReachF h x.type f ∧ h[f]? = some y ∧ y.name = m := by
  have v := containedN_visited _ _ hc
  rcases v.new m hm with hs | ⟨f, y, hr, hy, hn, -⟩
  · cases hs
  · exact ⟨f, y, hr, hy, hn⟩

/-- Every field that can be reached is found, if no two of the fields that can be reached share a
name. -/
theorem contained_complete (h : Heap) (x : AField) (out : List String)
    (hc : contained h x = .ok out)
    (hdis : ∀ f g y z, ReachF h x.type f → ReachF h x.type g → h[f]? = some y → h[g]? = some z →
      y.name = z.name → f = g)
    (f : FId) (y : AField) (hr : ReachF h x.type f) (hy : h[f]? = some y) : y.name ∈ out := by
  have v := containedN_visited _ _ hc
  have key : ∀ t g, ReachF h t g → (∀ f' y', Mentions t f' → h[f']? = some y' → y'.name ∈ out) →
      (∀ f', Mentions t f' → ReachF h x.type f') → ∀ z, h[g]? = some z → z.name ∈ out := by
    intro t g hr
    induction hr with
    | here hm => exact fun h1 _ z hz => h1 _ z hm hz
    | @deeper t f' x' g hm hx' _ ih =>
      intro h1 h2 z hz
      have hin := h1 _ _ hm hx'
      rcases v.new _ hin with hs | ⟨f2, y2, hr2, hy2, hn2, hcl⟩
      · cases hs
      · have he := hdis f2 f' y2 x' hr2 (h2 _ hm) hy2 hx' hn2
        subst he
        rw [hx'] at hy2; cases hy2
        exact ih hcl (fun f3 hm3 => (h2 _ hm).snoc hx' hm3) z hz
  exact key x.type f hr v.all (fun f' hm => .here hm) y hy

/-! ## Termination -/

theorem nodup_length_le : ∀ {l m : List String}, l.Nodup → (∀ x ∈ l, x ∈ m) → l.length ≤ m.length
  | [], _, _, _ => Nat.zero_le _
  | a :: l, m, hn, hs => by
    rw [List.nodup_cons] at hn
    have ha := hs a List.mem_cons_self
    have := nodup_length_le (m := m.erase a) hn.2 (fun x hx => by
      rw [List.mem_erase_of_ne (fun (e : x = a) => hn.1 (e ▸ hx))]
      exact hs x (List.mem_cons_of_mem _ hx))
    rw [List.length_erase_of_mem ha] at this
    have := List.length_pos_of_mem ha
    simp only [List.length_cons]; omega

/-- The names of all cells. -/
def heapNames (h : Heap) : List String := h.map (·.name)

/-- Names recorded so far: no repetition, all of them names of cells. -/
def GoodSeen (h : Heap) (seen : List String) : Prop := seen.Nodup ∧ ∀ m ∈ seen, m ∈ heapNames h

/-- With `n` to go there is room for all the names not yet seen; the answer is good too. -/
def FollowTotal (h : Heap) (follow : AField → List String → R (List String)) (n : Nat) : Prop :=
  ∀ x seen, GoodSeen h seen → h.length ≤ seen.length + n →
    follow x seen = .error .dangling ∨ ∃ out, follow x seen = .ok out ∧ GoodSeen h out ∧
      seen.length ≤ out.length

theorem visit_total {h : Heap} {follow : AField → List String → R (List String)} {n : Nat}
    (hf : FollowTotal h follow n) {f : FId} {seen : List String} (hg : GoodSeen h seen)
    (hl : h.length ≤ seen.length + (n + 1)) :
    visit h follow f seen = .error .dangling ∨ ∃ out, visit h follow f seen = .ok out ∧
      GoodSeen h out ∧ seen.length ≤ out.length := by
  unfold visit
  cases hd : deref h f with
  | error e =>
    unfold deref at hd
    split at hd
    · cases hd
    · cases hd; exact .inl rfl
  | ok x =>
    simp only [Except.bind]
    split
    · exact .inr ⟨seen, rfl, hg, Nat.le_refl _⟩
    · rename_i hin
      have hg' : GoodSeen h (seen ++ [x.name]) := by
        refine ⟨?_, ?_⟩
        · rw [List.nodup_append]
          exact ⟨hg.1, by simp, fun a ha b hb => by
            simp only [List.mem_singleton] at hb; subst hb; exact fun e => hin (e ▸ ha)⟩
        · intro m hm
          rcases List.mem_append.1 hm with hm | hm
          · exact hg.2 m hm
          · simp only [List.mem_singleton] at hm
            subst hm
            rw [deref_ok] at hd
            exact List.mem_map.2 ⟨x, List.mem_of_getElem? hd, rfl⟩
      rcases hf x _ hg' (by simp; omega) with h1 | ⟨out, h1, h2, h3⟩
      · exact .inl h1
      · exact .inr ⟨out, h1, h2, by simp at h3; omega⟩

theorem visit_full {h : Heap} {follow : AField → List String → R (List String)}
    {f : FId} {seen : List String} (hg : GoodSeen h seen) (hl : h.length ≤ seen.length) :
    visit h follow f seen = .error .dangling ∨ visit h follow f seen = .ok seen := by
  unfold visit
  cases hd : deref h f with
  | error e =>
    unfold deref at hd
    split at hd
    · cases hd
    · cases hd; exact .inl rfl
  | ok x =>
    simp only [Except.bind]
    right
    rw [if_pos]
    by_cases hin : x.name ∈ seen
    · exact hin
    · exfalso
      rw [deref_ok] at hd
      have := nodup_length_le (l := x.name :: seen) (m := heapNames h)
        (List.nodup_cons.2 ⟨hin, hg.1⟩) (fun m hm => by
          rcases List.mem_cons.1 hm with rfl | hm
          · exact List.mem_map.2 ⟨x, List.mem_of_getElem? hd, rfl⟩
          · exact hg.2 m hm)
      simp [heapNames] at this
      omega

/-- `visit` either fails on a dangling index or answers. -/
def VisitTotal (h : Heap) (follow : AField → List String → R (List String)) (n : Nat) : Prop :=
  ∀ f seen, GoodSeen h seen → h.length ≤ seen.length + n →
    visit h follow f seen = .error .dangling ∨ ∃ out, visit h follow f seen = .ok out ∧
      GoodSeen h out ∧ seen.length ≤ out.length

theorem visitAll_total {h : Heap} {follow : AField → List String → R (List String)} {n : Nat}
    (hf : VisitTotal h follow n) : ∀ {items : List (String × FId)} {seen : List String},
      GoodSeen h seen → h.length ≤ seen.length + n →
      visitAll h follow items seen = .error .dangling ∨ ∃ out,
        visitAll h follow items seen = .ok out ∧ GoodSeen h out ∧ seen.length ≤ out.length := by
  intro items
  induction items with
  | nil => intro seen hg _; exact .inr ⟨seen, rfl, hg, Nat.le_refl _⟩
  | cons i rest ih =>
    intro seen hg hl
    obtain ⟨nm, f⟩ := i
    simp only [visitAll]
    rcases hf f seen hg hl with h1 | ⟨out, h1, h2, h3⟩
    · rw [h1]; exact .inl rfl
    · rw [h1]
      simp only [Except.bind]
      rcases ih h2 (by omega) with h4 | ⟨out2, h4, h5, h6⟩
      · exact .inl h4
      · exact .inr ⟨out2, h4, h5, by omega⟩

theorem containedWith_total {h : Heap} {follow : AField → List String → R (List String)} {n : Nat}
    (hf : VisitTotal h follow n) : ∀ (t : AType) {seen : List String},
      GoodSeen h seen → h.length ≤ seen.length + n →
      containedWith h follow t seen = .error .dangling ∨ ∃ out,
        containedWith h follow t seen = .ok out ∧ GoodSeen h out ∧ seen.length ≤ out.length
  | .array tg el x len, seen, hg, hl => by
    simp only [containedWith]; exact containedWith_total hf el hg hl
  | .container tg len items e, seen, hg, hl => visitAll_total hf hg hl
  | .ref f args, seen, hg, hl => hf f seen hg hl
  | .enum .., seen, hg, hl => .inr ⟨seen, rfl, hg, Nat.le_refl _⟩
  | .bitfield .., seen, hg, hl => .inr ⟨seen, rfl, hg, Nat.le_refl _⟩
  | .scalar .., seen, hg, hl => .inr ⟨seen, rfl, hg, Nat.le_refl _⟩
  | .foreign .., seen, hg, hl => .inr ⟨seen, rfl, hg, Nat.le_refl _⟩
  | .f32, seen, hg, hl => .inr ⟨seen, rfl, hg, Nat.le_refl _⟩
  | .f64, seen, hg, hl => .inr ⟨seen, rfl, hg, Nat.le_refl _⟩
  | .bool, seen, hg, hl => .inr ⟨seen, rfl, hg, Nat.le_refl _⟩

theorem containedN_total {h : Heap} : ∀ (n : Nat) (t : AType) {seen : List String},
    GoodSeen h seen → h.length ≤ seen.length + n →
      containedN h n t seen = .error .dangling ∨ ∃ out,
        containedN h n t seen = .ok out ∧ GoodSeen h out ∧ seen.length ≤ out.length := by
  intro n
  induction n with
  | zero =>
    intro t seen hg hl
    refine containedWith_total (n := 0) (fun f s hg hl => ?_) t hg hl
    rcases visit_full (follow := fun _ _ => .error .diverge) (f := f) hg (by omega) with h1 | h1
    · exact .inl h1
    · exact .inr ⟨s, h1, hg, Nat.le_refl _⟩
  | succ n ih =>
    intro t seen hg hl
    exact containedWith_total (n := n + 1)
      (fun f s hg hl => visit_total (n := n) (fun x s' hg' hl' => ih x.type hg' hl') hg hl) t hg hl

/-- The search for recursive types always ends, whatever the types are (recursive or not): the bound
in the model is never reached. -/
theorem cycle_search_terminates (h : Heap) (x : AField) :
    contained h x = .error .dangling ∨ ∃ out, contained h x = .ok out := by
  rcases containedN_total (h := h) h.length x.type (seen := []) ⟨List.nodup_nil, by simp⟩
    (by simp) with h1 | ⟨out, h1, -⟩
  · exact .inl h1
  · exact .inr ⟨out, h1⟩

/-! ## The flag -/

/-- The search only looks at names and types. -/
def SameShape (h h' : Heap) : Prop :=
  h.length = h'.length ∧ ∀ f : FId, (h[f]?.map fun (x : AField) => (x.name, x.type)) =
    h'[f]?.map fun (x : AField) => (x.name, x.type)

theorem SameShape.some {h h' : Heap} (hs : SameShape h h') {f : FId} {x : AField}
    (hx : h[f]? = some x) : ∃ y, h'[f]? = some y ∧ y.name = x.name ∧ y.type = x.type := by
  have := hs.2 f
  rw [hx] at this
  cases hy : h'[f]? with
  | none => rw [hy] at this; cases this
  | some y =>
    rw [hy] at this
    simp only [Option.map_some, Option.some.injEq, Prod.mk.injEq] at this
    exact ⟨y, rfl, this.1.symm, this.2.symm⟩

theorem visit_same {h h' : Heap} (hs : SameShape h h')
    {follow follow' : AField → List String → R (List String)}
    (hf : ∀ x y : AField, x.type = y.type → ∀ s, follow x s = follow' y s) (f : FId)
    (seen : List String) : visit h follow f seen = visit h' follow' f seen := by
  unfold visit deref
  cases hx : h[f]? with
  | none =>
    have := hs.2 f
    rw [hx] at this
    cases hy : h'[f]? with
    | none => rfl
    | some y => rw [hy] at this; cases this
  | some x =>
    obtain ⟨y, hy, hn, ht⟩ := hs.some hx
    rw [hy]
    simp only [Except.bind, hn]
    rw [hf x y ht.symm]

theorem containedWith_same {h h' : Heap} (hs : SameShape h h')
    {follow follow' : AField → List String → R (List String)}
    (hf : ∀ x y : AField, x.type = y.type → ∀ s, follow x s = follow' y s) :
    ∀ (t : AType) (seen : List String),
      containedWith h follow t seen = containedWith h' follow' t seen
  | .array tg el x len, seen => by
    simp only [containedWith]; exact containedWith_same hs hf el seen
  | .container tg len items e, seen => by
    simp only [containedWith]
    induction items generalizing seen with
    | nil => rfl
    | cons i rest ih =>
      obtain ⟨n, f⟩ := i
      simp only [visitAll, visit_same hs hf]
      congr; funext s; exact ih s
  | .ref f args, seen => visit_same hs hf f seen
  | .enum .., _ => rfl
  | .bitfield .., _ => rfl
  | .scalar .., _ => rfl
  | .foreign .., _ => rfl
  | .f32, _ => rfl
  | .f64, _ => rfl
  | .bool, _ => rfl

theorem contained_same {h h' : Heap} (hs : SameShape h h') {x y : AField} (ht : x.type = y.type) :
    contained h x = contained h' y := by
  unfold contained
  rw [ht, hs.1]
  generalize h'.length = n
  generalize y.type = t
  generalize ([] : List String) = seen
  induction n generalizing t seen with
  | zero => exact containedWith_same hs (fun _ _ _ _ => rfl) t seen
  | succ n ih =>
    exact containedWith_same hs (fun x y hxy s => by rw [hxy]; exact ih _ _) t seen

theorem sameShape_flag {h : Heap} {f : FId} :
    SameShape h (h.modify f fun x => { x with cyclical := true }) := by
  refine ⟨by simp, fun g => ?_⟩
  rw [List.getElem?_modify]
  cases h[g]? <;> (split <;> rfl)

/-- Whether a field is found to be recursive: its own name is among the names reached. -/
def Flagged (h : Heap) (f : FId) : Prop :=
  ∃ x out, h[f]? = some x ∧ contained h x = .ok out ∧ x.name ∈ out

/-- Flagging changes nothing but the flags of the listed types, and sets exactly those of the types
found recursive. -/
theorem scanCycles_ok : ∀ {types : List (String × FId)} {h h' : Heap},
    scanCycles types h = .ok h' →
    SameShape h h' ∧ ∀ f x, h[f]? = some x → ∃ b, h'[f]? = some { x with cyclical := b } ∧
      (b = true ↔ x.cyclical = true ∨ (∃ n, (n, f) ∈ types) ∧ Flagged h f) := by
  intro types
  induction types with
  | nil =>
    intro h h' hs
    cases hs
    refine ⟨⟨rfl, fun _ => rfl⟩, fun f x hx => ⟨x.cyclical, hx, ?_⟩⟩
    simp
  | cons i rest ih =>
    intro h h' hs
    obtain ⟨n, g⟩ := i
    simp only [scanCycles, rbind_ok] at hs
    obtain ⟨h1, ho, hr⟩ := hs
    obtain ⟨hsh, hfl⟩ := ih hr
    unfold scanOne at ho
    simp only [rbind_ok, deref_ok] at ho
    obtain ⟨y, hy, out, hout, ho⟩ := ho
    have hflag : Flagged h g ↔ y.name ∈ out := by
      constructor
      · rintro ⟨y', out', h1, h2, h3⟩
        rw [hy] at h1; cases h1
        rw [hout] at h2; cases h2
        exact h3
      · exact fun h => ⟨y, out, hy, hout, h⟩
    -- the flag of `f` does not depend on flags
    have hsame : SameShape h h1 → ∀ f, Flagged h1 f ↔ Flagged h f := by
      intro hs f
      constructor
      · rintro ⟨x, out, hx, hc, hm⟩
        have hs' : SameShape h1 h := ⟨hs.1.symm, fun f => (hs.2 f).symm⟩
        obtain ⟨z, hz, hn, ht⟩ := hs'.some hx
        exact ⟨z, out, hz, by rw [contained_same hs ht]; exact hc, by rw [hn]; exact hm⟩
      · rintro ⟨x, out, hx, hc, hm⟩
        obtain ⟨z, hz, hn, ht⟩ := hs.some hx
        exact ⟨z, out, hz, by rw [← contained_same hs ht.symm]; exact hc, by rw [hn]; exact hm⟩
    have hmem : ∀ f, (∃ m, (m, f) ∈ (n, g) :: rest) ↔ f = g ∨ ∃ m, (m, f) ∈ rest := by
      intro f
      constructor
      · rintro ⟨m, hm⟩
        rcases List.mem_cons.1 hm with he | hm
        · cases he; exact .inl rfl
        · exact .inr ⟨m, hm⟩
      · rintro (rfl | ⟨m, hm⟩)
        · exact ⟨n, List.mem_cons_self⟩
        · exact ⟨m, List.mem_cons_of_mem _ hm⟩
    split at ho
    · rename_i hin
      cases ho
      have hs1 : SameShape h (h.modify g fun x => { x with cyclical := true }) := sameShape_flag
      refine ⟨⟨hs1.1.trans hsh.1, fun f => (hs1.2 f).trans (hsh.2 f)⟩, ?_⟩
      intro f x hx
      by_cases hfg : g = f
      · subst hfg
        have hx1 : (h.modify g fun x => { x with cyclical := true })[g]? =
            some { x with cyclical := true } := by rw [List.getElem?_modify]; simp [hx]
        obtain ⟨b, hb, hbt⟩ := hfl _ _ hx1
        refine ⟨b, hb, ?_⟩
        rw [hbt]
        constructor
        · exact fun _ => .inr ⟨(hmem _).2 (.inl rfl), hflag.2 hin⟩
        · exact fun _ => .inl rfl
      · have hx1 : (h.modify g fun x => { x with cyclical := true })[f]? = some x := by
          rw [List.getElem?_modify]; simp [hx, hfg]
        obtain ⟨b, hb, hbt⟩ := hfl _ _ hx1
        refine ⟨b, hb, ?_⟩
        rw [hbt, hsame hs1, hmem]
        constructor
        · rintro (h | ⟨h1, h2⟩)
          · exact .inl h
          · exact .inr ⟨.inr h1, h2⟩
        · rintro (h | ⟨h1, h2⟩)
          · exact .inl h
          · exact .inr ⟨h1.resolve_left (fun e => hfg e.symm), h2⟩
    · rename_i hin
      cases ho
      refine ⟨hsh, fun f x hx => ?_⟩
      obtain ⟨b, hb, hbt⟩ := hfl f x hx
      refine ⟨b, hb, ?_⟩
      rw [hbt, hmem]
      constructor
      · rintro (h | ⟨h1, h2⟩)
        · exact .inl h
        · exact .inr ⟨.inr h1, h2⟩
      · rintro (h | ⟨h1, h2⟩)
        · exact .inl h
        · refine .inr ⟨h1.resolve_left ?_, h2⟩
          rintro rfl
          exact hin (hflag.1 h2)

/-- C46, the part that holds: if the fields that a type can reach, and the type itself, have
distinct names, then it is found recursive iff it can reach a mention of itself. Missing: types
whose fields share names, for which the answer can be wrong both ways, see the findings. -/
theorem recursive_types_flagged_partial (h : Heap) (f : FId) (x : AField) (out : List String)
    (hx : h[f]? = some x) (hc : contained h x = .ok out)
    (hdis : ∀ g g' y z, (g = f ∨ ReachF h x.type g) → (g' = f ∨ ReachF h x.type g') →
      h[g]? = some y → h[g']? = some z → y.name = z.name → g = g') :
    Flagged h f ↔ ReachF h x.type f := by
  constructor
  · rintro ⟨x', out', hx', hc', hm⟩
    rw [hx] at hx'; cases hx'
    rw [hc] at hc'; cases hc'
    obtain ⟨g, y, hr, hy, hn⟩ := contained_sound h x out hc _ hm
    have := hdis g f y x (.inr hr) (.inl rfl) hy hx hn
    exact this ▸ hr
  · intro hr
    refine ⟨x, out, hx, hc, ?_⟩
    exact contained_complete h x out hc
      (fun f g y z h1 h2 h3 h4 h5 => hdis f g y z (.inr h1) (.inr h2) h3 h4 h5) f x hr hx

/-- Never flagged without reason: a flagged type can reach a field or type of its own name. -/
theorem flagged_reaches_name (h : Heap) (f : FId) (hf : Flagged h f) :
    ∃ x g y, h[f]? = some x ∧ ReachF h x.type g ∧ h[g]? = some y ∧ y.name = x.name := by
  obtain ⟨x, out, hx, hc, hm⟩ := hf
  obtain ⟨g, y, hr, hy, hn⟩ := contained_sound h x out hc _ hm
  exact ⟨x, g, y, hx, hr, hy, hn⟩

/-- A module, converted: the flag of each of its types says whether the type was found recursive
(imported types may have been flagged before). -/
theorem flags_of_module (env : Env) (mods : List (String × Prog)) (ast : Ast.Program) (p : Prog)
    (s s' : St) (h : (fromAstImported env mods ast).run s = .ok (p, s')) :
    ∃ s6 : St, SameShape s6.heap s'.heap ∧ ∀ n f, (n, f) ∈ p.types → ∀ x, s6.heap[f]? = some x →
      ∃ b, s'.heap[f]? = some { x with cyclical := b } ∧
        (b = true ↔ x.cyclical = true ∨ Flagged s6.heap f) := by
  obtain ⟨p1, s1, p2, s2, p3, s3, ids, s4, scs, s5, s6, -, -, -, -, -, -, hs⟩ := fromAstImported_ok h
  unfold scanM at hs
  rw [rmap_ok] at hs
  obtain ⟨h', hh, he⟩ := hs
  cases he
  obtain ⟨hsh, hfl⟩ := scanCycles_ok hh
  refine ⟨s6, hsh, fun n f hm x hx => ?_⟩
  obtain ⟨b, hb, hbt⟩ := hfl f x hx
  refine ⟨b, hb, hbt.trans ⟨?_, ?_⟩⟩
  · rintro (h | ⟨-, h⟩)
    · exact .inl h
    · exact .inr h
  · rintro (h | h)
    · exact .inl h
    · exact .inr ⟨⟨n, hm⟩, h⟩

/-- A field without condition, calculated value, flags or transforms. -/
def plainField (t : Ast.Ty) : Ast.Field := .mk t [] none none []

/-- A container of plain fields. -/
def plainContainer (items : List (String × Ast.Ty)) : Ast.Field :=
  plainField (.container none [] (items.map fun x => .field x.1 (plainField x.2)))

/-- The flag of the named type after conversion. -/
def cyclicalOf (ast : Ast.Program) (n : String) : Option Bool :=
  match convert (preludeEnv []) 0 ast with
  | .ok (p, h, _) => (IMap.get p.types n).bind fun f => h[f]?.map (·.cyclical)
  | .error _ => none

/-- `type node = container { v: u8, next: link }; type link = container { n: node[2] }`: both are
recursive and flagged; `leaf` is not. -/
example :
    let ast : Ast.Program :=
      [.type "node" [] (plainContainer [("v", .scalar Scalar.u8.toE), ("next", .ref "link" [])]),
       .type "link" [] (plainContainer [("n", .array (.ref "node" []) false none)]),
       .type "leaf" [] (plainContainer [("w", .scalar Scalar.u8.toE)])]
    cyclicalOf ast "node" = some true ∧ cyclicalOf ast "link" = some true ∧
      cyclicalOf ast "leaf" = some false := by decide +kernel

/-- Finding: `type a = container { a: u8 }` is flagged although it is not recursive. -/
theorem not_recursive_flagged_finding :
    cyclicalOf [.type "a" [] (plainContainer [("a", .scalar Scalar.u8.toE)])] "a" = some true := by decide +kernel

/-- Finding: `type a = container { b: u8, c: b }; type b = container { x: a }`: `a` contains itself,
but is not flagged, because the field `b` hides the type `b`. -/
theorem recursive_not_flagged_finding :
    cyclicalOf [.type "a" [] (plainContainer [("b", .scalar Scalar.u8.toE), ("c", .ref "b" [])]),
      .type "b" [] (plainContainer [("x", .ref "a" [])])] "a" = some false := by decide +kernel

end Verif.Props
