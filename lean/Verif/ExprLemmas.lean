import Verif.Runtime
/-!
# How the value of an expression depends on what it looks up
-/
namespace Verif

/-- `lk'` knows at least what `lk` knows. -/
structure Look.Le (lk lk' : Look) : Prop where
  field : ∀ n v, lk.field n = some v → lk'.field n = some v
  input : ∀ n v, lk.input n = some v → lk'.input n = some v

theorem ok_of_bind {ε α β} {x : Except ε α} {f : α → Except ε β} {b : β} (h : (x >>= f) = .ok b) :
    ∃ a, x = .ok a ∧ f a = .ok b := by
  cases x with
  | error e => cases h
  | ok a => exact ⟨a, rfl, h⟩

theorem optRes_ok {α} {o : Option α} {a : α} : optRes o = .ok a ↔ o = some a := by
  cases o <;> simp [optRes]

/-- Success of the first computation forces the same success of the second. -/
def OkLe {α} (x y : Res α) : Prop := ∀ a, x = .ok a → y = .ok a

theorem OkLe.refl {α} (x : Res α) : OkLe x x := fun _ h => h

theorem OkLe.bind {α β} {x y : Res α} {f g : α → Res β} (h : OkLe x y) (hf : ∀ a, OkLe (f a) (g a)) :
    OkLe (x >>= f) (y >>= g) := by
  intro b hb
  obtain ⟨a, ha, hb⟩ := ok_of_bind hb
  rw [h a ha]
  exact hf a b hb

theorem OkLe.mapM {α β} {f g : α → Res β} (l : List α) (h : ∀ a ∈ l, OkLe (f a) (g a)) :
    OkLe (l.mapM f) (l.mapM g) := by
  induction l with
  | nil => exact OkLe.refl _
  | cons a l ih =>
    simp only [List.mapM_cons]
    exact (h a (by simp)).bind fun b => (ih fun x hx => h x (by simp [hx])).bind fun c => OkLe.refl _

/-- A known value stays the same when more is known. -/
theorem evalE_mono {rust oc : Bool} {lk lk' : Look} (h : lk.Le lk') :
    ∀ e : Expr, OkLe (evalE rust oc lk e) (evalE rust oc lk' e)
  | .binary op l r => by
    have hl := evalE_mono (rust := rust) (oc := oc) h l
    have hr := evalE_mono (rust := rust) (oc := oc) h r
    have hb : ∀ op, OkLe (do
        let a ← evalE rust oc lk l
        let b ← evalE rust oc lk r
        rtBin oc op a b) (do
        let a ← evalE rust oc lk' l
        let b ← evalE rust oc lk' r
        rtBin oc op a b) := fun op => hl.bind fun a => hr.bind fun b => OkLe.refl _
    have hs : ∀ op, OkLe (if rust ∧ op = .shrSigned then .error .ill else do
        let a ← evalE rust oc lk l
        let b ← evalE rust oc lk r
        rtBin oc op a b) (if rust ∧ op = .shrSigned then .error .ill else do
        let a ← evalE rust oc lk' l
        let b ← evalE rust oc lk' r
        rtBin oc op a b) := by
      intro op; split
      · exact OkLe.refl _
      · exact hb op
    cases op with
    | or =>
      refine hl.bind fun a => OkLe.bind (OkLe.refl _) fun x => ?_
      split
      · exact OkLe.refl _
      · exact hr.bind fun b => OkLe.refl _
    | and =>
      refine hl.bind fun a => OkLe.bind (OkLe.refl _) fun x => ?_
      split
      · exact hr.bind fun b => OkLe.refl _
      · exact OkLe.refl _
    | elvis => exact hl.bind fun a => hr.bind fun b => OkLe.refl _
    | _ => exact hs _
  | .unary op (.cast src e ty) => by
    have he := evalE_mono (rust := rust) (oc := oc) h e
    exact he.bind fun v => OkLe.refl _
  | .unary op (.binary a b c) =>
    (evalE_mono (rust := rust) (oc := oc) h (.binary a b c)).bind fun v => OkLe.refl _
  | .unary op (.unary a b) =>
    (evalE_mono (rust := rust) (oc := oc) h (.unary a b)).bind fun v => OkLe.refl _
  | .unary op (.index a b) =>
    (evalE_mono (rust := rust) (oc := oc) h (.index a b)).bind fun v => OkLe.refl _
  | .unary op (.enumAccess a b c) =>
    (evalE_mono (rust := rust) (oc := oc) h (.enumAccess a b c)).bind fun v => OkLe.refl _
  | .unary op (.int a) =>
    (evalE_mono (rust := rust) (oc := oc) h (.int a)).bind fun v => OkLe.refl _
  | .unary op (.constRef a b) =>
    (evalE_mono (rust := rust) (oc := oc) h (.constRef a b)).bind fun v => OkLe.refl _
  | .unary op (.inputRef a) =>
    (evalE_mono (rust := rust) (oc := oc) h (.inputRef a)).bind fun v => OkLe.refl _
  | .unary op (.fieldRef a) =>
    (evalE_mono (rust := rust) (oc := oc) h (.fieldRef a)).bind fun v => OkLe.refl _
  | .unary op (.str a) =>
    (evalE_mono (rust := rust) (oc := oc) h (.str a)).bind fun v => OkLe.refl _
  | .unary op (.ternary a b c) =>
    (evalE_mono (rust := rust) (oc := oc) h (.ternary a b c)).bind fun v => OkLe.refl _
  | .unary op (.bool a) =>
    (evalE_mono (rust := rust) (oc := oc) h (.bool a)).bind fun v => OkLe.refl _
  | .unary op (.len a b) =>
    (evalE_mono (rust := rust) (oc := oc) h (.len a b)).bind fun v => OkLe.refl _
  | .unary op (.blen a) =>
    (evalE_mono (rust := rust) (oc := oc) h (.blen a)).bind fun v => OkLe.refl _
  | .unary op (.sum a) =>
    (evalE_mono (rust := rust) (oc := oc) h (.sum a)).bind fun v => OkLe.refl _
  | .unary op (.bits a) =>
    (evalE_mono (rust := rust) (oc := oc) h (.bits a)).bind fun v => OkLe.refl _
  | .unary op (.pad a b) =>
    (evalE_mono (rust := rust) (oc := oc) h (.pad a b)).bind fun v => OkLe.refl _
  | .unary op (.member a b c) =>
    (evalE_mono (rust := rust) (oc := oc) h (.member a b c)).bind fun v => OkLe.refl _
  | .cast src e ty => (evalE_mono (rust := rust) (oc := oc) h e).bind fun v => OkLe.refl _
  | .index a i => by
    have ha := evalE_mono (rust := rust) (oc := oc) h a
    have hi := evalE_mono (rust := rust) (oc := oc) h i
    unfold evalE
    split
    · exact OkLe.refl _
    · exact ha.bind fun v => hi.bind fun w => OkLe.refl _
  | .enumAccess _ _ _ => OkLe.refl _
  | .int _ => OkLe.refl _
  | .constRef n value => by
    have hv := evalE_mono (rust := rust) (oc := oc) h value
    unfold evalE
    split
    · intro v hv; rw [optRes_ok] at *; exact h.input n v hv
    · exact hv
  | .inputRef n => by
    intro v hv; simp only [evalE, optRes_ok] at *; exact h.input n v hv
  | .fieldRef n => by
    intro v hv; simp only [evalE, optRes_ok] at *; exact h.field n v hv
  | .str _ => OkLe.refl _
  | .ternary c t f => by
    have hc := evalE_mono (rust := rust) (oc := oc) h c
    have ht := evalE_mono (rust := rust) (oc := oc) h t
    have hf := evalE_mono (rust := rust) (oc := oc) h f
    refine hc.bind fun v => OkLe.bind (OkLe.refl _) fun b => ?_
    split
    · exact ht
    · exact hf
  | .bool _ => OkLe.refl _
  | .len fixed e => by
    have he := evalE_mono (rust := rust) (oc := oc) h e
    cases fixed with
    | some n => exact OkLe.refl _
    | none => exact he.bind fun v => OkLe.refl _
  | .blen _ => OkLe.refl _
  | .sum e => (evalE_mono (rust := rust) (oc := oc) h e).bind fun v => OkLe.refl _
  | .bits e => (evalE_mono (rust := rust) (oc := oc) h e).bind fun v => OkLe.refl _
  | .pad p b => by
    have hp := evalE_mono (rust := rust) (oc := oc) h p
    have hb := evalE_mono (rust := rust) (oc := oc) h b
    exact hb.bind fun v => hp.bind fun w => OkLe.refl _
  | .member e _ value => (evalE_mono (rust := rust) (oc := oc) h e).bind fun v => OkLe.refl _

/-! ## Field references -/
theorem evalE_unary (rust oc : Bool) (lk : Look) (op : UnOp) (e : Expr) (h : ∀ s x t, e ≠ .cast s x t) :
    evalE rust oc lk (.unary op e) = (evalE rust oc lk e >>= rtUn oc op) := by
  cases e <;> first | rfl | exact absurd rfl (h _ _ _)


/-- The fields an expression refers to. -/
def Expr.refs : Expr → List String
  | .binary _ l r => l.refs ++ r.refs
  | .unary _ e => e.refs
  | .cast _ e _ => e.refs
  | .index a i => a.refs ++ i.refs
  | .enumAccess _ _ _ => []
  | .int _ => []
  | .constRef _ v => v.refs
  | .inputRef _ => []
  | .fieldRef n => [n]
  | .str _ => []
  | .ternary c t f => c.refs ++ t.refs ++ f.refs
  | .bool _ => []
  | .len _ e => e.refs
  | .blen _ => []
  | .sum e => e.refs
  | .bits e => e.refs
  | .pad p b => p.refs ++ b.refs
  | .member e _ _ => e.refs

/-- Knows only the given fields. -/
def Look.only (lk : Look) (S : List String) : Look := ⟨fun n => if n ∈ S then lk.field n else none, lk.input⟩

/-- Only the fields referred to matter. -/
theorem evalE_only {rust oc : Bool} {lk : Look} {S : List String} :
    ∀ e : Expr, (∀ n ∈ e.refs, n ∈ S) → evalE rust oc (lk.only S) e = evalE rust oc lk e
  | .binary op l r, hs => by
    have hl := evalE_only (rust := rust) (oc := oc) (lk := lk) (S := S) l fun n h => hs n (by simp [Expr.refs, h])
    have hr := evalE_only (rust := rust) (oc := oc) (lk := lk) (S := S) r fun n h => hs n (by simp [Expr.refs, h])
    unfold evalE
    rw [hl, hr]
  | .unary op (.cast src e ty), hs => by
    have he := evalE_only (rust := rust) (oc := oc) (lk := lk) (S := S) e fun n h => hs n (by simp [Expr.refs, h])
    simp only [evalE, he]
  | .unary op (.binary a b c), hs => by
    have h1 := evalE_only (rust := rust) (oc := oc) (lk := lk) (S := S) (.binary a b c) fun n h => hs n h
    rw [evalE_unary _ _ _ op _ (by intros; simp), evalE_unary _ _ lk op _ (by intros; simp), h1]
  | .unary op (.unary a b), hs => by
    have hu : ∀ lk, evalE rust oc lk (.unary op (.unary a b)) = (evalE rust oc lk (.unary a b) >>= rtUn oc op) :=
      fun lk => rfl
    have h1 := evalE_only (rust := rust) (oc := oc) (lk := lk) (S := S) (.unary a b) fun n h => hs n h
    rw [hu, hu, h1]
  | .unary op (.index a b), hs => by
    have h1 := evalE_only (rust := rust) (oc := oc) (lk := lk) (S := S) (.index a b) fun n h => hs n h
    rw [evalE_unary _ _ _ op _ (by intros; simp), evalE_unary _ _ lk op _ (by intros; simp), h1]
  | .unary op (.enumAccess a b c), hs => by
    have h1 := evalE_only (rust := rust) (oc := oc) (lk := lk) (S := S) (.enumAccess a b c) fun n h => hs n h
    rw [evalE_unary _ _ _ op _ (by intros; simp), evalE_unary _ _ lk op _ (by intros; simp), h1]
  | .unary op (.int a), hs => by
    have h1 := evalE_only (rust := rust) (oc := oc) (lk := lk) (S := S) (.int a) fun n h => hs n h
    rw [evalE_unary _ _ _ op _ (by intros; simp), evalE_unary _ _ lk op _ (by intros; simp), h1]
  | .unary op (.constRef a b), hs => by
    have h1 := evalE_only (rust := rust) (oc := oc) (lk := lk) (S := S) (.constRef a b) fun n h => hs n h
    rw [evalE_unary _ _ _ op _ (by intros; simp), evalE_unary _ _ lk op _ (by intros; simp), h1]
  | .unary op (.inputRef a), hs => by
    have h1 := evalE_only (rust := rust) (oc := oc) (lk := lk) (S := S) (.inputRef a) fun n h => hs n h
    rw [evalE_unary _ _ _ op _ (by intros; simp), evalE_unary _ _ lk op _ (by intros; simp), h1]
  | .unary op (.fieldRef a), hs => by
    have h1 := evalE_only (rust := rust) (oc := oc) (lk := lk) (S := S) (.fieldRef a) fun n h => hs n h
    rw [evalE_unary _ _ _ op _ (by intros; simp), evalE_unary _ _ lk op _ (by intros; simp), h1]
  | .unary op (.str a), hs => by
    have h1 := evalE_only (rust := rust) (oc := oc) (lk := lk) (S := S) (.str a) fun n h => hs n h
    rw [evalE_unary _ _ _ op _ (by intros; simp), evalE_unary _ _ lk op _ (by intros; simp), h1]
  | .unary op (.ternary a b c), hs => by
    have h1 := evalE_only (rust := rust) (oc := oc) (lk := lk) (S := S) (.ternary a b c) fun n h => hs n h
    rw [evalE_unary _ _ _ op _ (by intros; simp), evalE_unary _ _ lk op _ (by intros; simp), h1]
  | .unary op (.bool a), hs => by
    have h1 := evalE_only (rust := rust) (oc := oc) (lk := lk) (S := S) (.bool a) fun n h => hs n h
    rw [evalE_unary _ _ _ op _ (by intros; simp), evalE_unary _ _ lk op _ (by intros; simp), h1]
  | .unary op (.len a b), hs => by
    have h1 := evalE_only (rust := rust) (oc := oc) (lk := lk) (S := S) (.len a b) fun n h => hs n h
    rw [evalE_unary _ _ _ op _ (by intros; simp), evalE_unary _ _ lk op _ (by intros; simp), h1]
  | .unary op (.blen a), hs => by
    have h1 := evalE_only (rust := rust) (oc := oc) (lk := lk) (S := S) (.blen a) fun n h => hs n h
    rw [evalE_unary _ _ _ op _ (by intros; simp), evalE_unary _ _ lk op _ (by intros; simp), h1]
  | .unary op (.sum a), hs => by
    have h1 := evalE_only (rust := rust) (oc := oc) (lk := lk) (S := S) (.sum a) fun n h => hs n h
    rw [evalE_unary _ _ _ op _ (by intros; simp), evalE_unary _ _ lk op _ (by intros; simp), h1]
  | .unary op (.bits a), hs => by
    have h1 := evalE_only (rust := rust) (oc := oc) (lk := lk) (S := S) (.bits a) fun n h => hs n h
    rw [evalE_unary _ _ _ op _ (by intros; simp), evalE_unary _ _ lk op _ (by intros; simp), h1]
  | .unary op (.pad a b), hs => by
    have h1 := evalE_only (rust := rust) (oc := oc) (lk := lk) (S := S) (.pad a b) fun n h => hs n h
    rw [evalE_unary _ _ _ op _ (by intros; simp), evalE_unary _ _ lk op _ (by intros; simp), h1]
  | .unary op (.member a b c), hs => by
    have h1 := evalE_only (rust := rust) (oc := oc) (lk := lk) (S := S) (.member a b c) fun n h => hs n h
    rw [evalE_unary _ _ _ op _ (by intros; simp), evalE_unary _ _ lk op _ (by intros; simp), h1]
  | .cast src e ty, hs => by
    have he := evalE_only (rust := rust) (oc := oc) (lk := lk) (S := S) e fun n h => hs n (by simp [Expr.refs, h])
    simp only [evalE, he]
  | .index a i, hs => by
    have ha := evalE_only (rust := rust) (oc := oc) (lk := lk) (S := S) a fun n h => hs n (by simp [Expr.refs, h])
    have hi := evalE_only (rust := rust) (oc := oc) (lk := lk) (S := S) i fun n h => hs n (by simp [Expr.refs, h])
    simp only [evalE, ha, hi]
  | .enumAccess _ _ _, _ => by simp only [evalE]
  | .int _, _ => by simp only [evalE]
  | .constRef n v, hs => by
    have hv := evalE_only (rust := rust) (oc := oc) (lk := lk) (S := S) v fun n h => hs n (by simp [Expr.refs, h])
    simp only [evalE, hv]; rfl
  | .inputRef n, hs => by simp only [evalE, Look.only]
  | .fieldRef n, hs => by simp only [evalE, Look.only, if_pos (hs n (by simp [Expr.refs]))]
  | .str _, _ => by simp only [evalE]
  | .ternary c t f, hs => by
    have hc := evalE_only (rust := rust) (oc := oc) (lk := lk) (S := S) c fun n h => hs n (by simp [Expr.refs, h])
    have ht := evalE_only (rust := rust) (oc := oc) (lk := lk) (S := S) t fun n h => hs n (by simp [Expr.refs, h])
    have hf := evalE_only (rust := rust) (oc := oc) (lk := lk) (S := S) f fun n h => hs n (by simp [Expr.refs, h])
    simp only [evalE, hc, ht, hf]
  | .bool _, _ => by simp only [evalE]
  | .len fixed e, hs => by
    have he := evalE_only (rust := rust) (oc := oc) (lk := lk) (S := S) e fun n h => hs n (by simp [Expr.refs, h])
    simp only [evalE, he]
  | .blen _, _ => by simp only [evalE]
  | .sum e, hs => by
    have he := evalE_only (rust := rust) (oc := oc) (lk := lk) (S := S) e fun n h => hs n (by simp [Expr.refs, h])
    simp only [evalE, he]
  | .bits e, hs => by
    have he := evalE_only (rust := rust) (oc := oc) (lk := lk) (S := S) e fun n h => hs n (by simp [Expr.refs, h])
    simp only [evalE, he]
  | .pad p b, hs => by
    have hp := evalE_only (rust := rust) (oc := oc) (lk := lk) (S := S) p fun n h => hs n (by simp [Expr.refs, h])
    have hb := evalE_only (rust := rust) (oc := oc) (lk := lk) (S := S) b fun n h => hs n (by simp [Expr.refs, h])
    simp only [evalE, hp, hb]
  | .member e _ v, hs => by
    have he := evalE_only (rust := rust) (oc := oc) (lk := lk) (S := S) e fun n h => hs n (by simp [Expr.refs, h])
    simp only [evalE, he]

/-- A known value stays the same when at least the fields referred to are known. -/
theorem evalE_mono_on {rust oc : Bool} {lk lk' : Look} (e : Expr)
    (hf : ∀ n ∈ e.refs, ∀ v, lk.field n = some v → lk'.field n = some v)
    (hi : ∀ n v, lk.input n = some v → lk'.input n = some v) :
    OkLe (evalE rust oc lk e) (evalE rust oc lk' e) := by
  rw [← evalE_only (lk := lk) (S := e.refs) e fun _ h => h]
  refine evalE_mono (lk := lk.only e.refs) ⟨fun n v h => ?_, hi⟩ e
  simp only [Look.only] at h
  split at h
  · exact hf n ‹_› v h
  · cases h

end Verif
