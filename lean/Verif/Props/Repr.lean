import Verif.Repr
import Verif.Props.Const
/-!
# Properties C17-C20: enum and bitfield representations
-/
namespace Verif.Props

/-! ## C17 -/

/-- C17: whatever `from_repr` accepts is written back as the same number. -/
theorem enum_from_then_to (d : EnumDecl) (hn : (d.items.map Prod.fst).Nodup) (x : Int) (e : EnumVal)
    (h : d.fromRepr x = some e) : d.toRepr e = some x := by
  obtain ⟨rep, items⟩ := d
  simp only [EnumDecl.fromRepr, EnumDecl.toRepr] at *
  induction items with
  | nil => simp [fromReprArms] at h
  | cons p rest ih =>
    obtain ⟨n, v⟩ := p
    simp only [List.map_cons, List.nodup_cons] at hn
    have key : ∀ rest, n ∉ rest.map Prod.fst → fromReprArms rest x ≠ some (.unit n) := by
      intro rest
      induction rest with
      | nil => simp [fromReprArms]
      | cons q r ih =>
        obtain ⟨m, w⟩ := q
        intro hm
        simp only [List.map_cons, List.mem_cons, not_or] at hm
        cases w with
        | none => simp [fromReprArms]
        | some w =>
          simp only [fromReprArms]
          split
          · simp; exact fun h => hm.1 h.symm
          · exact ih hm.2
    cases v with
    | none =>
      simp only [fromReprArms, Option.some.injEq] at h
      subst h
      simp [toReprArms]
    | some v =>
      simp only [fromReprArms] at h
      split at h
      · rename_i hx
        cases h
        simp [toReprArms, hx]
      · simp only [toReprArms]
        split
        · rename_i he
          subst he
          exact absurd h (key rest hn.1)
        · exact ih hn.2 h

/-- C17: without a default variant exactly the declared values are accepted. -/
theorem enum_accepts_declared (d : EnumDecl) (hd : ∀ n, (n, none) ∉ d.items) (x : Int) :
    (∃ e, d.fromRepr x = some e) ↔ ∃ n, (n, some x) ∈ d.items := by
  obtain ⟨rep, items⟩ := d
  simp only [EnumDecl.fromRepr] at *
  induction items with
  | nil => simp [fromReprArms]
  | cons p rest ih =>
    obtain ⟨n, v⟩ := p
    cases v with
    | none => exact absurd (List.mem_cons_self) (hd n)
    | some v =>
      have ih := ih (fun n h => hd n (List.mem_cons_of_mem _ h))
      simp only [fromReprArms]
      split
      · rename_i hx; subst hx; simp
      · rename_i hx
        rw [ih]
        simp [Ne.symm hx, hx]

/-- C17: with a default variant every value is accepted. -/
theorem enum_default_accepts_all (d : EnumDecl) (n : String) (hd : (n, none) ∈ d.items) (x : Int) :
    ∃ e, d.fromRepr x = some e := by
  obtain ⟨rep, items⟩ := d
  simp only [EnumDecl.fromRepr] at *
  induction items with
  | nil => simp at hd
  | cons p rest ih =>
    obtain ⟨m, v⟩ := p
    cases v with
    | none => exact ⟨_, rfl⟩
    | some v =>
      simp only [List.mem_cons, Prod.mk.injEq, reduceCtorEq, and_false, false_or] at hd
      simp only [fromReprArms]
      split
      · exact ⟨_, rfl⟩
      · exact ih hd

/-- C17: a named variant survives the round trip whenever its value is not shared with an earlier
variant and the default, if any, comes last (which conversion enforces, see
`enum_default_is_last`). -/
theorem enum_to_then_from (d : EnumDecl) (hn : (d.items.map Prod.fst).Nodup)
    (hv : (d.items.filterMap Prod.snd).Nodup)
    (hl : ∀ pre n post, d.items = pre ++ (n, none) :: post → post = [])
    (n : String) (v : Int) (hm : (n, some v) ∈ d.items) :
    d.toRepr (.unit n) = some v ∧ d.fromRepr v = some (.unit n) := by
  obtain ⟨rep, items⟩ := d
  simp only [EnumDecl.fromRepr, EnumDecl.toRepr] at *
  induction items with
  | nil => simp at hm
  | cons p rest ih =>
    obtain ⟨m, w⟩ := p
    simp only [List.map_cons, List.nodup_cons] at hn
    cases w with
    | none =>
      have := hl [] m rest rfl
      subst this
      simp at hm
    | some w =>
      simp only [List.filterMap_cons, List.nodup_cons] at hv
      simp only [List.mem_cons, Prod.mk.injEq, Option.some.injEq] at hm
      rcases hm with ⟨rfl, rfl⟩ | hm
      · simp [toReprArms, fromReprArms]
      · have h1 : n ≠ m := by
          rintro rfl
          exact hn.1 (List.mem_map_of_mem (f := Prod.fst) hm)
        have h2 : v ≠ w := by
          rintro rfl
          exact hv.1 (List.mem_filterMap.mpr ⟨_, hm, rfl⟩)
        have := ih hn.2 hv.2 (fun pre a post h => hl ((m, some w) :: pre) a post (by rw [h]; rfl)) hm
        simp [toReprArms, fromReprArms, h1, h2, this]

/-- C17: the default variant survives the round trip exactly when its payload is not one of the
declared values. -/
theorem enum_default_round_trip (d : EnumDecl) (hn : (d.items.map Prod.fst).Nodup) (n : String)
    (p : Int) (hm : (n, none) ∈ d.items)
    (hl : ∀ pre m post, d.items = pre ++ (m, none) :: post → post = []) :
    d.toRepr (.dflt n p) = some p ∧
    (d.fromRepr p = some (.dflt n p) ↔ ∀ m, (m, some p) ∉ d.items) := by
  obtain ⟨rep, items⟩ := d
  simp only [EnumDecl.fromRepr, EnumDecl.toRepr] at *
  induction items with
  | nil => simp at hm
  | cons q rest ih =>
    obtain ⟨m, w⟩ := q
    simp only [List.map_cons, List.nodup_cons] at hn
    cases w with
    | none =>
      have := hl [] m rest rfl
      subst this
      simp at hm
      subst hm
      simp [toReprArms, fromReprArms]
    | some w =>
      simp only [List.mem_cons, Prod.mk.injEq, reduceCtorEq, and_false, false_or] at hm
      have := ih hn.2 hm (fun pre a post h => hl ((m, some w) :: pre) a post (by rw [h]; rfl))
      simp only [toReprArms, fromReprArms, reduceCtorEq, if_false]
      refine ⟨this.1, ?_⟩
      split
      · rename_i hp
        subst hp
        simp
        exact ⟨m, fun h => absurd rfl h⟩
      · rename_i hp
        rw [this.2]
        simp [hp]

example : let d : EnumDecl := ⟨⟨.u8, .big⟩, [("a", some 3), ("b", some 4), ("other", none)]⟩
    (d.items.map Prod.fst).Nodup ∧ (d.items.filterMap Prod.snd).Nodup ∧
    d.fromRepr 4 = some (.unit "b") ∧ d.fromRepr 9 = some (.dflt "other" 9) := by decide

/-! ## C18, C19: numbering -/

private theorem foldlM_append {α σ ε} (f : σ → α → Except ε σ) (s : σ) (xs ys : List α) :
    (xs ++ ys).foldlM f s = (xs.foldlM f s >>= fun s' => ys.foldlM f s') := by
  induction xs generalizing s with
  | nil => rfl
  | cons x xs ih =>
    simp only [List.cons_append, List.foldlM_cons, bind_assoc]
    congr 1
    funext s'
    exact ih s'

private theorem parse_counter {k n c} (h : CInt.parse k (Nat.toDigits 10 n) = some c) :
    c = ⟨k, n⟩ ∧ k.InRange (n : Int) := by
  rw [decimal_literal_round_trip] at h
  split at h
  · simp at h; exact ⟨h.symm, by assumption⟩
  · simp at h

/-- Numbering of a run of implicit items after an explicit one. -/
private theorem run_implicit (k : Scalar) (op : BinOp)
    (step : NumState → String → Except NumErr NumState)
    (hstep : ∀ s n s', step s n = .ok s' → ∃ e, implicitExpr k op s = .ok e ∧
      s'.items = s.items ++ [(n, some e)] ∧ s'.last = s.last ∧ s'.counter = s.counter + 1)
    (names : List String) (s s' : NumState) (n0 : String) (e0 : Expr) (hlast : s.last = some (n0, e0))
    (h : names.foldlM step s = .ok s') :
    ∃ es, s'.items = s.items ++ es ∧ es.length = names.length ∧
      s'.last = s.last ∧ ∀ j (hj : j < names.length), es[j]? =
        some (names[j], some (.binary op (.constRef n0 e0) (.int ⟨k, (s.counter + j : Nat)⟩))) ∧
        k.InRange ((s.counter + j : Nat) : Int) := by
  induction names generalizing s with
  | nil => cases h; exact ⟨[], by simp, rfl, rfl, by simp⟩
  | cons n ns ih =>
    simp only [List.foldlM_cons, bind_ok] at h
    obtain ⟨s1, h1, h⟩ := h
    obtain ⟨e, he, hi, hl, hc⟩ := hstep _ _ _ h1
    obtain ⟨es, hes, hlen, hl', hj⟩ := ih s1 (hl.trans hlast) h
    refine ⟨(n, some e) :: es, by rw [hes, hi]; simp, by simp [hlen], hl'.trans hl, ?_⟩
    unfold implicitExpr at he
    simp only [hlast] at he
    split at he
    · cases he
    · rename_i c hp
      cases he
      obtain ⟨rfl, hr⟩ := parse_counter hp
      intro j hj'
      cases j with
      | zero => simp [hr]
      | succ j =>
        have := hj j (by simpa using hj')
        rw [hc] at this
        simp only [List.getElem?_cons_succ, List.getElem_cons_succ]
        rw [show s.counter + (j + 1) = s.counter + 1 + j by omega]
        exact this

private theorem itemValues_get {oc items vals} (h : itemValues oc items = .ok vals) :
    ∀ (i : Nat) (n : String) (e : Expr), items[i]? = some (n, some e) → ∃ v, constEval oc e = .ok v ∧ vals[i]? = some (n, some v) := by
  induction items generalizing vals with
  | nil => simp
  | cons p rest ih =>
    obtain ⟨m, v⟩ := p
    cases v with
    | none =>
      simp only [itemValues, bind_ok] at h
      obtain ⟨r, hr, h⟩ := h
      cases h
      intro i n e hi
      cases i with
      | zero => simp at hi
      | succ i => simpa using ih hr i n e (by simpa using hi)
    | some w =>
      simp only [itemValues, bind_ok] at h
      obtain ⟨x, hx, r, hr, h⟩ := h
      cases h
      intro i n e hi
      cases i with
      | zero => simp at hi; obtain ⟨rfl, rfl⟩ := hi; exact ⟨x, hx, by simp⟩
      | succ i => simpa using ih hr i n e (by simpa using hi)

private theorem foldlM_map {α β σ ε} (f : σ → α → Except ε σ) (g : β → α) (l : List β) (s : σ) :
    (l.map g).foldlM f s = l.foldlM (fun s b => f s (g b)) s := by
  induction l generalizing s with
  | nil => rfl
  | cons x xs ih => simp only [List.map_cons, List.foldlM_cons]; congr 1; funext s'; exact ih s'

private theorem enumStep_implicit (k : Scalar) (s : NumState) (n : String) (s' : NumState)
    (h : enumStep k s n .implicit = .ok s') : ∃ e, implicitExpr k .add s = .ok e ∧
      s'.items = s.items ++ [(n, some e)] ∧ s'.last = s.last ∧ s'.counter = s.counter + 1 := by
  unfold enumStep at h
  split at h
  · cases h
  · split at h
    · cases h
    · simp only [bind_ok] at h
      obtain ⟨e, he, h⟩ := h
      cases h
      exact ⟨e, he, rfl, rfl, rfl⟩

private theorem enumStep_prefix (k : Scalar) (s s' : NumState) (n : String) (v : ItemVal)
    (h : enumStep k s n v = .ok s') : ∃ x, s'.items = s.items ++ [(n, x)] ∧ (x = none ↔ v = .dflt) ∧
      (∀ e, v = .expr e → x = some e) := by
  cases v with
  | implicit =>
    obtain ⟨e, _, h, _⟩ := enumStep_implicit k s n s' h
    exact ⟨_, h, by simp, by simp⟩
  | dflt =>
    unfold enumStep at h
    split at h <;> try cases h
    split at h <;> cases h
    exact ⟨_, rfl, by simp, by simp⟩
  | expr e =>
    unfold enumStep at h
    split at h <;> try cases h
    split at h <;> cases h
    exact ⟨_, rfl, by simp, by simp⟩

private theorem enumRun_items (k : Scalar) (l : List (String × ItemVal)) (s s' : NumState)
    (h : l.foldlM (fun s p => enumStep k s p.1 p.2) s = .ok s') :
    ∃ es, s'.items = s.items ++ es ∧ es.map Prod.fst = l.map Prod.fst := by
  induction l generalizing s with
  | nil => cases h; exact ⟨[], by simp, rfl⟩
  | cons p l ih =>
    simp only [List.foldlM_cons, bind_ok] at h
    obtain ⟨s1, h1, h⟩ := h
    obtain ⟨x, hx, _⟩ := enumStep_prefix k s s1 p.1 p.2 h1
    obtain ⟨es, he, hm⟩ := ih s1 h
    exact ⟨(p.1, x) :: es, by rw [he, hx]; simp, by simp [hm]⟩

/-- C18: in an accepted enum, the `j`-th variant after an explicit one with value `v` (with only
implicit variants in between) has exactly the value `v + j`, and that value fits the
representation. (If it does not fit, numbering or evaluation refuses: there are no values.) -/
theorem enum_implicit_numbering (k : Scalar) (pre post : List (String × ItemVal))
    (n0 : String) (e0 : Expr) (names : List String) (st : NumState)
    (vals : List (String × Option CVal))
    (hc : enumConvert k (pre ++ (n0, .expr e0) :: (names.map fun n => (n, .implicit)) ++ post) = .ok st)
    (hv : itemValues true st.items = .ok vals) (hk : Kinded e0 (.int k)) :
    ∃ v : Int, vals[pre.length]? = some (n0, some (.int ⟨k, v⟩)) ∧
      ∀ j (hj : j < names.length), k.InRange (v + (j + 1)) ∧
        vals[pre.length + (j + 1)]? = some (names[j], some (.int ⟨k, v + (j + 1)⟩)) := by
  unfold enumConvert at hc
  rw [List.append_assoc, foldlM_append, bind_ok] at hc
  obtain ⟨s1, h1, hc⟩ := hc
  simp only [List.cons_append, List.foldlM_cons, bind_ok] at hc
  obtain ⟨s2, h2, hc⟩ := hc
  rw [foldlM_append, bind_ok] at hc
  obtain ⟨s3, h3, hc⟩ := hc
  rw [foldlM_map] at h3
  obtain ⟨es1, hes1, hm1⟩ := enumRun_items k pre _ s1 h1
  obtain ⟨es3, hes3, _⟩ := enumRun_items k post _ st hc
  have hs2 : s2.items = s1.items ++ [(n0, some e0)] ∧ s2.last = some (n0, e0) ∧ s2.counter = 1 := by
    unfold enumStep at h2
    split at h2
    · cases h2
    · split at h2 <;> cases h2
      exact ⟨rfl, rfl, rfl⟩
  obtain ⟨es2, hes2, hlen2, _, hget⟩ := run_implicit k .add (fun s n => enumStep k s n .implicit)
    (enumStep_implicit k) names s2 s3 n0 e0 hs2.2.1 h3
  have hl1 : s1.items.length = pre.length := by
    have := congrArg List.length hm1
    simp at this
    simp [hes1, NumState.init, this]
  have hall : st.items = s1.items ++ ((n0, some e0) :: (es2 ++ es3)) := by
    rw [hes3, hes2, hs2.1]; simp
  have g0 : st.items[pre.length]? = some (n0, some e0) := by
    rw [hall, List.getElem?_append_right (by omega), hl1]; simp
  obtain ⟨v0, hv0, hvals0⟩ := itemValues_get hv _ _ _ g0
  obtain ⟨v, rfl, hr⟩ := hasTy_int (const_eval_sound hk hv0).2
  refine ⟨v, hvals0, ?_⟩
  intro j hj
  obtain ⟨gj, hrj⟩ := hget j hj
  have gj' : st.items[pre.length + (j + 1)]? = es2[j]? := by
    rw [hall, List.getElem?_append_right (by omega), hl1]
    rw [show pre.length + (j + 1) - pre.length = j + 1 by omega, List.getElem?_cons_succ,
      List.getElem?_append_left (by omega)]
  rw [gj] at gj'
  obtain ⟨w, hw, hwv⟩ := itemValues_get hv _ _ _ gj'
  simp only [constEval, hv0] at hw
  have hw : constBin true .add (.int ⟨k, v⟩) (.int ⟨k, (s2.counter + j : Nat)⟩) = .ok w := hw
  obtain ⟨r, rfl⟩ : ∃ r, w = .int r := by
    simp only [constBin, CVal.toInt, bind_ok, Except.ok.injEq] at hw
    obtain ⟨_, rfl, _, rfl, r, _, rfl⟩ := hw
    exact ⟨r, rfl⟩
  obtain ⟨_, h4, h5, h6⟩ := (const_op_exact_or_refused .add trivial ⟨k, v⟩ _ hr r).mp hw
  obtain ⟨kr, rv⟩ := r
  simp only at h4 h5 h6
  subst h4 h6
  rw [hs2.2.2] at hwv h5
  have e : (v + ((1 + j : Nat) : Int)) = v + (j + 1) := by omega
  rw [e] at hwv
  rw [e] at h5
  exact ⟨h5, hwv⟩

example : (do
    let s ← (enumConvert .u8 [("a", .expr (.int ⟨.u8, 250⟩)), ("b", .implicit), ("c", .implicit),
      ("d", .expr (.int ⟨.u8, 3⟩)), ("e", .implicit)]).toOption
    (itemValues true s.items).toOption) =
    some [("a", some (.int ⟨.u8, 250⟩)), ("b", some (.int ⟨.u8, 251⟩)), ("c", some (.int ⟨.u8, 252⟩)),
      ("d", some (.int ⟨.u8, 3⟩)), ("e", some (.int ⟨.u8, 4⟩))] := by decide +kernel

private theorem bitfieldStep_implicit (k : Scalar) (s : NumState) (n : String) (s' : NumState)
    (h : bitfieldStep k s n none = .ok s') : ∃ e, implicitExpr k .shl s = .ok e ∧
      s'.items = s.items ++ [(n, some e)] ∧ s'.last = s.last ∧ s'.counter = s.counter + 1 := by
  unfold bitfieldStep at h
  split at h
  · cases h
  · simp only [bind_ok] at h
    obtain ⟨e, he, h⟩ := h
    cases h
    exact ⟨e, he, rfl, rfl, rfl⟩

private theorem bitfieldRun_items (k : Scalar) (l : List (String × Option Expr)) (s s' : NumState)
    (h : l.foldlM (fun s p => bitfieldStep k s p.1 p.2) s = .ok s') :
    ∃ es, s'.items = s.items ++ es ∧ es.map Prod.fst = l.map Prod.fst := by
  induction l generalizing s with
  | nil => cases h; exact ⟨[], by simp, rfl⟩
  | cons p l ih =>
    simp only [List.foldlM_cons, bind_ok] at h
    obtain ⟨s1, h1, h⟩ := h
    have : ∃ x, s1.items = s.items ++ [(p.1, x)] := by
      obtain ⟨n, v⟩ := p
      cases v with
      | none => obtain ⟨e, _, h, _⟩ := bitfieldStep_implicit k s n s1 h1; exact ⟨_, h⟩
      | some e =>
        simp only [bitfieldStep] at h1
        split at h1 <;> cases h1
        exact ⟨_, rfl⟩
    obtain ⟨x, hx⟩ := this
    obtain ⟨es, he, hm⟩ := ih s1 h
    exact ⟨(p.1, x) :: es, by rw [he, hx]; simp, by simp [hm]⟩

/-- C19: in an accepted bitfield, the `j`-th flag after an explicit one with value `v` (with only
implicit flags in between) has the value `v * 2^j` modulo `2^bits` of the representation, and `j`
is smaller than the number of bits. -/
theorem bitfield_implicit_shift (k : Scalar) (pre post : List (String × Option Expr))
    (n0 : String) (e0 : Expr) (names : List String) (st : NumState)
    (vals : List (String × Option CVal))
    (hc : bitfieldConvert k (pre ++ (n0, some e0) :: (names.map fun n => (n, none)) ++ post) = .ok st)
    (hv : itemValues true st.items = .ok vals) (hk : Kinded e0 (.int k)) :
    ∃ v : Int, vals[pre.length]? = some (n0, some (.int ⟨k, v⟩)) ∧
      ∀ j (hj : j < names.length), j + 1 < k.bits ∧ ∃ r m : Int, k.InRange r ∧
        r = v * 2 ^ (j + 1) + m * 2 ^ k.bits ∧
        vals[pre.length + (j + 1)]? = some (names[j], some (.int ⟨k, r⟩)) := by
  unfold bitfieldConvert at hc
  rw [List.append_assoc, foldlM_append, bind_ok] at hc
  obtain ⟨s1, h1, hc⟩ := hc
  simp only [List.cons_append, List.foldlM_cons, bind_ok] at hc
  obtain ⟨s2, h2, hc⟩ := hc
  rw [foldlM_append, bind_ok] at hc
  obtain ⟨s3, h3, hc⟩ := hc
  rw [foldlM_map] at h3
  obtain ⟨es1, hes1, hm1⟩ := bitfieldRun_items k pre _ s1 h1
  obtain ⟨es3, hes3, _⟩ := bitfieldRun_items k post _ st hc
  have hs2 : s2.items = s1.items ++ [(n0, some e0)] ∧ s2.last = some (n0, e0) ∧ s2.counter = 1 := by
    simp only [bitfieldStep] at h2
    split at h2
    · cases h2
    · cases h2
      exact ⟨rfl, rfl, rfl⟩
  obtain ⟨es2, hes2, hlen2, _, hget⟩ := run_implicit k .shl (fun s n => bitfieldStep k s n none)
    (bitfieldStep_implicit k) names s2 s3 n0 e0 hs2.2.1 h3
  have hl1 : s1.items.length = pre.length := by
    have := congrArg List.length hm1
    simp at this
    simp [hes1, NumState.init, this]
  have hall : st.items = s1.items ++ ((n0, some e0) :: (es2 ++ es3)) := by
    rw [hes3, hes2, hs2.1]; simp
  have g0 : st.items[pre.length]? = some (n0, some e0) := by
    rw [hall, List.getElem?_append_right (by omega), hl1]; simp
  obtain ⟨v0, hv0, hvals0⟩ := itemValues_get hv _ _ _ g0
  obtain ⟨v, rfl, hr⟩ := hasTy_int (const_eval_sound hk hv0).2
  refine ⟨v, hvals0, ?_⟩
  intro j hj
  obtain ⟨gj, hrj⟩ := hget j hj
  have gj' : st.items[pre.length + (j + 1)]? = es2[j]? := by
    rw [hall, List.getElem?_append_right (by omega), hl1]
    rw [show pre.length + (j + 1) - pre.length = j + 1 by omega, List.getElem?_cons_succ,
      List.getElem?_append_left (by omega)]
  rw [gj] at gj'
  obtain ⟨w, hw, hwv⟩ := itemValues_get hv _ _ _ gj'
  simp only [constEval, hv0] at hw
  have hw : constBin true .shl (.int ⟨k, v⟩) (.int ⟨k, (s2.counter + j : Nat)⟩) = .ok w := hw
  obtain ⟨r, rfl⟩ : ∃ r, w = .int r := by
    simp only [constBin, CVal.toInt, bind_ok, Except.ok.injEq] at hw
    obtain ⟨_, rfl, _, rfl, r, _, rfl⟩ := hw
    exact ⟨r, rfl⟩
  obtain ⟨_, h4, h5, _, h7, m, h8⟩ := (const_op_exact_or_refused .shl trivial ⟨k, v⟩ _ hr r).mp hw
  obtain ⟨kr, rv⟩ := r
  simp only at h4 h5 h7 h8
  subst h4
  rw [hs2.2.2] at h7 h8
  refine ⟨by omega, rv, m, h5, ?_, hwv⟩
  rw [h8]
  congr 3
  omega

example : (do
    let s ← (bitfieldConvert .u8 [("a", some (.int ⟨.u8, 1⟩)), ("b", none), ("c", none),
      ("d", some (.int ⟨.u8, 64⟩)), ("e", none)]).toOption
    (itemValues true s.items).toOption) =
    some [("a", some (.int ⟨.u8, 1⟩)), ("b", some (.int ⟨.u8, 2⟩)), ("c", some (.int ⟨.u8, 4⟩)),
      ("d", some (.int ⟨.u8, 64⟩)), ("e", some (.int ⟨.u8, 128⟩))] := by decide +kernel

/-- Finding: an enum or bitfield whose first item has no explicit value makes protospec panic
(`last_defined_item.as_ref().unwrap()`), for every representation, name and remaining items. -/
theorem implicit_first_item_panics (k : Scalar) (n : String) (rest : List (String × ItemVal))
    (rest' : List (String × Option Expr)) :
    enumConvert k ((n, .implicit) :: rest) = .error .panic ∧
    bitfieldConvert k ((n, none) :: rest') = .error .panic := by
  constructor <;> rfl

/-- C17/C41 for enums: an accepted enum has pairwise distinct variant names, in source order, and a
default variant can only be the last one. -/
theorem enum_default_is_last (k : Scalar) (items : List (String × ItemVal)) (st : NumState)
    (h : enumConvert k items = .ok st) :
    st.items.map Prod.fst = items.map Prod.fst ∧ (items.map Prod.fst).Nodup ∧
    ∀ pre n post, st.items = pre ++ (n, none) :: post → post = [] := by
  suffices ∀ (l : List (String × ItemVal)) (s s' : NumState),
      l.foldlM (fun s p => enumStep k s p.1 p.2) s = .ok s' →
      ((s.items.map Prod.fst).Nodup ∧
        (∀ pre n post, s.items = pre ++ (n, none) :: post → post = [] ∧ s.hasDefault = true)) →
      ((s'.items.map Prod.fst).Nodup ∧
        (∀ pre n post, s'.items = pre ++ (n, none) :: post → post = [] ∧ s'.hasDefault = true)) by
    have h1 := this items .init st h ⟨by simp [NumState.init], by simp [NumState.init]⟩
    obtain ⟨es, h2, h3⟩ := enumRun_items k items _ st h
    simp [NumState.init] at h2
    subst h2
    rw [← h3]
    exact ⟨rfl, h1.1, fun pre n post h => (h1.2 pre n post h).1⟩
  intro l
  induction l with
  | nil => intro s s' h; cases h; exact id
  | cons p l ih =>
    intro s s' h hs
    simp only [List.foldlM_cons, bind_ok] at h
    obtain ⟨s1, h1, h⟩ := h
    apply ih s1 s' h
    obtain ⟨x, hx, hd, _⟩ := enumStep_prefix k s s1 p.1 p.2 h1
    have hnd : s.items.any (fun q => q.1 == p.1) = false ∧ s.hasDefault = false := by
      unfold enumStep at h1
      split at h1
      · cases h1
      · split at h1
        · cases h1
        · rename_i h3 h4; exact ⟨Bool.eq_false_iff.mpr h3, by simpa using h4⟩
    constructor
    · rw [hx, List.map_append, List.nodup_append]
      refine ⟨hs.1, by simp, ?_⟩
      intro a ha b hb
      simp only [List.map_cons, List.map_nil, List.mem_singleton] at hb
      subst hb
      rintro rfl
      obtain ⟨q, hq, he⟩ := List.mem_map.mp ha
      have := hnd.1
      simp only [List.any_eq_false] at this
      exact this q hq (by simp [he])
    · intro pre n post he
      rw [hx] at he
      by_cases hp : post = []
      · subst hp
        refine ⟨rfl, ?_⟩
        have := List.append_inj_right' he rfl
        simp only [List.cons.injEq, Prod.mk.injEq, and_true] at this
        have hdf := hd.mp this.2
        rw [hdf] at h1
        unfold enumStep at h1
        split at h1 <;> try cases h1
        split at h1 <;> cases h1
        rfl
      · exfalso
        obtain ⟨post', q, rfl⟩ : ∃ t c, post = t ++ [c] :=
          ⟨post.dropLast, post.getLast hp, (List.dropLast_concat_getLast hp).symm⟩
        have he' : s.items ++ [(p.1, x)] = (pre ++ (n, none) :: post') ++ [q] := by rw [he]; simp
        have := List.append_inj_left' he' rfl
        have := (hs.2 _ _ _ this).2
        rw [hnd.2] at this
        cases this

example : (enumConvert .u8 [("a", .expr (.int ⟨.u8, 3⟩)), ("b", .implicit), ("o", .dflt)]).isOk = true ∧
    enumConvert .u8 [("a", .expr (.int ⟨.u8, 3⟩)), ("o", .dflt), ("b", .implicit)] =
      .error (.afterDefault "b") := by decide +kernel

/-! ## C20 -/

private theorem pat_or (d : BitfieldDecl) (a b : Int) (i : Nat) (hi : i < d.rep.scalar.bits) :
    bitAt (d.or a b) i = (bitAt a i || bitAt b i) := by
  have hl := Nat.or_lt_two_pow (Scalar.toPat_lt d.rep.scalar a) (Scalar.toPat_lt d.rep.scalar b)
  unfold BitfieldDecl.or
  rw [bitAt_ofPat _ _ hl i hi, Nat.testBit_or, testBit_toPat _ _ _ hi, testBit_toPat _ _ _ hi]

private theorem pat_and (d : BitfieldDecl) (a b : Int) (i : Nat) (hi : i < d.rep.scalar.bits) :
    bitAt (d.and a b) i = (bitAt a i && bitAt b i) := by
  have hl : d.rep.scalar.toPat a &&& d.rep.scalar.toPat b < 2 ^ d.rep.scalar.bits :=
    Nat.lt_of_le_of_lt Nat.and_le_left (Scalar.toPat_lt d.rep.scalar a)
  unfold BitfieldDecl.and
  rw [bitAt_ofPat _ _ hl i hi, Nat.testBit_and, testBit_toPat _ _ _ hi, testBit_toPat _ _ _ hi]

private theorem bit_zero (i : Nat) : bitAt 0 i = false := by simp [bitAt]

private theorem and_eq_zero (d : BitfieldDecl) (a b : Int) :
    d.and a b = 0 ↔ ∀ i < d.rep.scalar.bits, ¬ (bitAt a i = true ∧ bitAt b i = true) := by
  constructor
  · intro h i hi
    have := pat_and d a b i hi
    rw [h, bit_zero] at this
    simpa using this.symm
  · intro h
    have hz : d.rep.scalar.InRange 0 := by cases d.rep.scalar <;> decide
    apply eq_of_bits d.rep.scalar _ _ (Scalar.ofPat_inRange _ _) hz
    intro i hi
    show bitAt (d.and a b) i = _
    rw [pat_and d a b i hi, bit_zero]
    simpa using h i hi

private theorem all_bits (d : BitfieldDecl) (i : Nat) (hi : i < d.rep.scalar.bits) :
    bitAt d.all i = true ↔ ∃ p ∈ d.flags, bitAt p.2 i = true := by
  unfold BitfieldDecl.all
  suffices ∀ (l : List (String × Int)) (acc : Int),
      bitAt (l.foldl (fun acc p => d.or acc p.2) acc) i = true ↔
        bitAt acc i = true ∨ ∃ p ∈ l, bitAt p.2 i = true by
    rw [this, bit_zero]; simp
  intro l
  induction l with
  | nil => simp
  | cons p l ih =>
    intro acc
    simp only [List.foldl_cons, ih, pat_or d acc p.2 i hi, Bool.or_eq_true, List.mem_cons,
      exists_eq_or_imp, or_assoc]

/-- C20: `from_repr` accepts `x` exactly when every bit of `x` belongs to a declared flag, and then
keeps `x` unchanged. -/
theorem bitfield_accepts (d : BitfieldDecl) (x : Int) :
    ((∃ y, d.fromRepr x = some y) ↔
      ∀ i < d.rep.scalar.bits, bitAt x i = true → ∃ p ∈ d.flags, bitAt p.2 i = true) ∧
    ∀ y, d.fromRepr x = some y → y = x := by
  unfold BitfieldDecl.fromRepr
  constructor
  · have : (∃ y, (if d.and x (d.compl d.all) ≠ 0 then none else some x) = some y) ↔
        d.and x (d.compl d.all) = 0 := by
      by_cases h : d.and x (d.compl d.all) = 0 <;> simp [h]
    rw [this, and_eq_zero]
    apply forall_congr'
    intro i
    apply forall_congr'
    intro hi
    have hc : bitAt (d.compl d.all) i = !bitAt d.all i := by
      unfold BitfieldDecl.compl
      rw [bitAt_wrap _ _ _ hi, bitAt_not]
    rw [hc, ← all_bits d i hi]
    cases bitAt x i <;> cases bitAt d.all i <;> simp
  · intro y h
    split at h <;> simp at h
    exact h.symm

/-- C20: the getter of a flag reports whether any of its bits is set. -/
theorem bitfield_getter (d : BitfieldDecl) (x f : Int) :
    d.get x f = true ↔ ∃ i < d.rep.scalar.bits, bitAt x i = true ∧ bitAt f i = true := by
  unfold BitfieldDecl.get
  rw [bne_iff_ne, ne_eq, and_eq_zero]
  simp only [Classical.not_forall, Classical.not_not, exists_prop]

/-- C20: setting a flag that has at least one bit makes its getter true, leaves the getter of every
disjoint flag unchanged, never clears a bit, and an accepted value stays accepted when the flag is
declared. -/
theorem bitfield_setter (d : BitfieldDecl) (x f : Int) :
    ((∃ i < d.rep.scalar.bits, bitAt f i = true) → d.get (d.set x f) f = true) ∧
    (∀ g, (∀ i < d.rep.scalar.bits, ¬ (bitAt f i = true ∧ bitAt g i = true)) →
      d.get (d.set x f) g = d.get x g) ∧
    (∀ g, d.get x g = true → d.get (d.set x f) g = true) ∧
    (∀ n, (n, f) ∈ d.flags → (∃ y, d.fromRepr x = some y) → ∃ y, d.fromRepr (d.set x f) = some y) := by
  have hs : ∀ i < d.rep.scalar.bits, bitAt (d.set x f) i = (bitAt x i || bitAt f i) := pat_or d x f
  refine ⟨?_, ?_, ?_, ?_⟩
  · rintro ⟨i, hi, h⟩
    exact (bitfield_getter d _ _).mpr ⟨i, hi, by rw [hs i hi, h]; simp, h⟩
  · intro g hg
    rw [Bool.eq_iff_iff, bitfield_getter, bitfield_getter]
    constructor
    · rintro ⟨i, hi, h1, h2⟩
      rw [hs i hi, Bool.or_eq_true] at h1
      rcases h1 with h1 | h1
      · exact ⟨i, hi, h1, h2⟩
      · exact absurd ⟨h1, h2⟩ (hg i hi)
    · rintro ⟨i, hi, h1, h2⟩
      exact ⟨i, hi, by rw [hs i hi, h1]; rfl, h2⟩
  · intro g hg
    obtain ⟨i, hi, h1, h2⟩ := (bitfield_getter _ _ _).mp hg
    exact (bitfield_getter _ _ _).mpr ⟨i, hi, by rw [hs i hi, h1]; rfl, h2⟩
  · intro n hn hx
    rw [(bitfield_accepts d x).1] at hx
    rw [(bitfield_accepts d _).1]
    intro i hi h
    rw [hs i hi, Bool.or_eq_true] at h
    rcases h with h | h
    · exact hx i hi h
    · exact ⟨_, hn, h⟩

/-- A zero-valued flag can never be observed: its getter is false even after setting it. -/
theorem bitfield_zero_flag (d : BitfieldDecl) (x : Int) : d.get (d.set x 0) 0 = false := by
  cases h : d.get (d.set x 0) 0 with
  | false => rfl
  | true =>
    obtain ⟨i, _, _, h⟩ := (bitfield_getter _ _ _).mp h
    simp [bit_zero] at h

example : let d : BitfieldDecl := ⟨⟨.u16, .little⟩, [("a", 1), ("b", 2), ("c", 0x300)]⟩
    d.all = 0x303 ∧ d.fromRepr 0x102 = some 0x102 ∧ d.fromRepr 4 = none ∧
    d.get 0x102 0x300 = true ∧ d.set 1 2 = 3 := by decide

theorem bitfield_or_bits (d : BitfieldDecl) (a b : Int) (i : Nat) (hi : i < d.rep.scalar.bits) :
    bitAt (d.or a b) i = (bitAt a i || bitAt b i) := pat_or d a b i hi

theorem bitfield_and_bits (d : BitfieldDecl) (a b : Int) (i : Nat) (hi : i < d.rep.scalar.bits) :
    bitAt (d.and a b) i = (bitAt a i && bitAt b i) := pat_and d a b i hi

theorem bitfield_all_bits (d : BitfieldDecl) (i : Nat) (hi : i < d.rep.scalar.bits) :
    bitAt d.all i = true ↔ ∃ p ∈ d.flags, bitAt p.2 i = true := all_bits d i hi

theorem bitfield_not_bits (d : BitfieldDecl) (a : Int) (i : Nat) (hi : i < d.rep.scalar.bits) :
    bitAt (d.compl a) i = !bitAt a i := by
  unfold BitfieldDecl.compl
  rw [bitAt_wrap _ _ _ hi, bitAt_not]

end Verif.Props
