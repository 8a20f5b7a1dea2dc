import Verif.Readers
import Verif.Props.EndToEnd
/-!
# C70: readers are asked only for what they can do
-/
namespace Verif.Props
open Verif Verif.Dec

/-- Spec: the use of a reader variable is one that rustc accepts: the variable is still there, and its type can do it. -/
def Granted (A : Api) (q : Ask × Option Rd) : Prop := ∃ r, q.2 = some r ∧ able A r q.1 = true

/-- **C70.** Whether rustc accepts how the emitted decoder uses its readers can be seen from the specification. -/
theorem readers_ok_iff (A : Api) (d : Decl) : (∀ q ∈ asked A (genDecl d) atStart, Granted A q) ↔ readersOk A d = true := by
  rw [genDecl_asked]
  unfold readersOk
  rw [List.all_eq_true]
  refine forall_congr' fun q => imp_congr_right fun _ => ?_
  obtain ⟨a, r⟩ := q
  cases r with
  | none => simp [Granted]
  | some r => simp [Granted]

/-- Spec: transforms that make a `BufRead`, leave their variable and ask for nothing special. -/
def Friendly (A : Api) (n : String) : Prop := (A.xf n).buf = true ∧ (A.xf n).needsSized = false ∧ (A.xf n).moves = false

/-- The transforms used somewhere in a type are friendly and have no conditions. -/
def FriendlyUses (A : Api) (xs : List XformUse) : Prop := ∀ x ∈ xs, Friendly A x.name ∧ x.cond = none

def FriendlyItems (A : Api) : Fields → Prop
  | .nil => True
  | .pad _ _ rest => FriendlyItems A rest
  | .leaf a _ rest => FriendlyUses A a.xfs ∧ FriendlyItems A rest
  | .cont a _ items rest => FriendlyUses A a.xfs ∧ FriendlyItems A items ∧ FriendlyItems A rest

def FriendlyDecl (A : Api) (d : Decl) : Prop :=
  FriendlyUses A d.xfs ∧
  match d.body with
  | .struct _ items => FriendlyItems A items
  | .tagged _ arms => ∀ arm ∈ arms, FriendlyUses A arm.attr.xfs ∧ (match arm.body with | .leaf _ => True | .cont _ items => FriendlyItems A items)
  | _ => True

/-- A reader with which one can do everything. -/
def GoodRd (A : Api) (r : Option Rd) : Prop := ∃ r', r = some r' ∧ r'.buf A = true ∧ r'.sized = true

variable {A : Api}

theorem GoodRd.granted {r : Option Rd} (h : GoodRd A r) (a : Ask) : Granted A (a, r) := by
  obtain ⟨r', rfl, hb, hs⟩ := h
  refine ⟨r', rfl, ?_⟩
  cases a <;> simp [able, hb, hs]

theorem wantsLeaf_good : ∀ (ty : LTy) {r : Option Rd}, GoodRd A r → ∀ q ∈ wantsLeaf r ty, Granted A q
  | .prim p, r, h, q, hq => by
    simp only [wantsLeaf, List.mem_singleton] at hq
    exact hq ▸ h.granted _
  | .ref n f res args, r, h, q, hq => by
    simp only [wantsLeaf, List.mem_singleton] at hq
    exact hq ▸ h.granted _
  | .array el len, r, h, q, hq => by
    have hc : GoodRd A (some .cursor) := ⟨_, rfl, rfl, rfl⟩
    cases len with
    | term e =>
      simp only [wantsLeaf, List.mem_cons] at hq
      rcases hq with rfl | hq
      · exact h.granted _
      · exact wantsLeaf_good el h q hq
    | fixed e =>
      simp only [wantsLeaf] at hq
      split at hq
      · exact wantsLeaf_good el h q hq
      · rw [List.mem_singleton] at hq
        exact hq ▸ h.granted _
    | unbounded =>
      simp only [wantsLeaf, List.mem_cons] at hq
      rcases hq with rfl | hq
      · exact h.granted _
      · split at hq
        · exact wantsLeaf_good el hc q hq
        · cases hq

theorem xforms_good : ∀ (xs : List XformUse) {r : Option Rd}, FriendlyUses A xs → GoodRd A r →
    (∀ q ∈ wantsXforms r xs, Granted A q) ∧ GoodRd A (behindAll r xs) ∧ leftBy A r xs = r
  | [], r, _, h => ⟨by simp [wantsXforms], h, rfl⟩
  | x :: xs, r, hx, h => by
    obtain ⟨⟨h1, h2, h3⟩, h4⟩ := hx x (List.mem_cons_self ..)
    have hb : GoodRd A (behindOne x r) := by
      obtain ⟨r', rfl, -, -⟩ := h
      exact ⟨.xf x.name r', by simp [behindOne, h4], h1, rfl⟩
    obtain ⟨g1, g2, -⟩ := xforms_good xs (fun y hy => hx y (List.mem_cons_of_mem _ hy)) hb
    refine ⟨fun q hq => ?_, g2, by simp [leftBy, Api.left, h3]⟩
    simp only [wantsXforms, List.mem_cons] at hq
    rcases hq with rfl | hq
    · exact h.granted _
    · exact g1 q hq

theorem limited_good {r : Option Rd} (h : GoodRd A r) (len : Option Expr) :
    (∀ q ∈ wantsLimit r len, Granted A q) ∧ GoodRd A (limited r len) := by
  cases len with
  | none => exact ⟨by simp [wantsLimit], h⟩
  | some e =>
    refine ⟨fun q hq => ?_, ?_⟩
    · simp only [wantsLimit, Option.isSome_some, if_true, List.mem_singleton] at hq
      exact hq ▸ h.granted _
    · obtain ⟨r', rfl, hb, -⟩ := h
      exact ⟨.take r', rfl, hb, rfl⟩

theorem FriendlyUses.reverse {xs : List XformUse} (h : FriendlyUses A xs) : FriendlyUses A xs.reverse :=
  fun x hx => h x (List.mem_reverse.1 hx)

theorem leftItems_good : ∀ (fs : Fields) {r : Option Rd}, FriendlyItems A fs → GoodRd A r → leftItems A r fs = r
  | .nil, r, _, _ => rfl
  | .pad _ _ rest, r, h, g => leftItems_good rest (by simpa only [FriendlyItems] using h) g
  | .leaf a ty rest, r, h, g => by
    simp only [FriendlyItems] at h
    rw [leftItems, (xforms_good _ h.1.reverse g).2.2]
    exact leftItems_good rest h.2 g
  | .cont a len items rest, r, h, g => by
    simp only [FriendlyItems] at h
    rw [leftItems, (xforms_good _ h.1.reverse g).2.2, leftItems_good items h.2.1 g, ite_self]
    exact leftItems_good rest h.2.2 g

theorem wantsItems_good : ∀ (fs : Fields) {r : Option Rd}, FriendlyItems A fs → GoodRd A r → ∀ q ∈ wantsItems A r fs, Granted A q
  | .nil, r, _, _, q, hq => by cases hq
  | .pad _ _ rest, r, h, g, q, hq => by
    simp only [wantsItems, List.mem_cons] at hq
    rcases hq with rfl | hq
    · exact g.granted _
    · exact wantsItems_good rest (by simpa only [FriendlyItems] using h) g q hq
  | .leaf a ty rest, r, h, g, q, hq => by
    simp only [FriendlyItems] at h
    obtain ⟨g1, g2, g3⟩ := xforms_good _ h.1.reverse g
    simp only [wantsItems, g3, List.mem_append] at hq
    rcases hq with (hq | hq) | hq
    · exact g1 q hq
    · exact wantsLeaf_good ty g2 q hq
    · exact wantsItems_good rest h.2 g q hq
  | .cont a len items rest, r, h, g, q, hq => by
    simp only [FriendlyItems] at h
    obtain ⟨g1, g2, g3⟩ := xforms_good _ h.1.reverse g
    obtain ⟨l1, l2⟩ := limited_good g2 len
    simp only [wantsItems, g3, leftItems_good items h.2.1 g, ite_self, List.mem_append] at hq
    rcases hq with ((hq | hq) | hq) | hq
    · exact g1 q hq
    · exact l1 q hq
    · exact wantsItems_good items h.2.1 l2 q hq
    · exact wantsItems_good rest h.2.2 g q hq

theorem wantsArms_good : ∀ (arms : List Arm) {r : Option Rd},
    (∀ arm ∈ arms, FriendlyUses A arm.attr.xfs ∧ (match arm.body with | .leaf _ => True | .cont _ items => FriendlyItems A items)) → GoodRd A r →
    ∀ q ∈ wantsArms A r arms, Granted A q
  | [], r, _, _, q, hq => by cases hq
  | arm :: arms, r, h, g, q, hq => by
    obtain ⟨h1, h2⟩ := h arm (List.mem_cons_self ..)
    obtain ⟨g1, g2, -⟩ := xforms_good _ h1.reverse g
    simp only [wantsArms, List.mem_append] at hq
    rcases hq with (hq | hq) | hq
    · exact g1 q hq
    · revert hq h2
      cases arm.body with
      | leaf ty => exact fun _ hq => wantsLeaf_good ty g2 q hq
      | cont len items =>
        intro h2 hq
        obtain ⟨l1, l2⟩ := limited_good g2 len
        simp only [wantsArmBody, List.mem_append] at hq
        rcases hq with hq | hq
        · exact l1 q hq
        · exact wantsItems_good items h2 l2 q hq
    · split at hq
      · exact wantsArms_good arms (fun a ha => h a (List.mem_cons_of_mem _ ha)) g q hq
      · cases hq

/-- **C70.** If the transforms of a type are friendly and unconditional, in particular if it has none, rustc accepts what the decoder does with its readers:
references, terminated arrays and strings included, in containers with lengths and arrays of any depth. -/
theorem friendly_readers_ok (d : Decl) (h : FriendlyDecl A d) : ∀ q ∈ asked A (genDecl d) atStart, Granted A q := by
  rw [genDecl_asked]
  intro q hq
  have g : GoodRd A (some .own) := ⟨_, rfl, rfl, rfl⟩
  obtain ⟨g1, g2, -⟩ := xforms_good _ h.1.reverse g
  have hb := h.2
  unfold wants at hq
  rw [List.mem_append] at hq
  rcases hq with hq | hq
  · exact g1 q hq
  · revert hq hb
    cases d.body with
    | leaf c ty => exact fun _ hq => wantsLeaf_good ty g2 q hq
    | repr t =>
      intro _ hq
      simp only [List.mem_singleton] at hq
      exact hq ▸ g2.granted _
    | struct len items =>
      intro hb hq
      obtain ⟨l1, l2⟩ := limited_good g2 len
      simp only [List.mem_append] at hq
      rcases hq with hq | hq
      · exact l1 q hq
      · exact wantsItems_good items hb l2 q hq
    | tagged len arms =>
      intro hb hq
      obtain ⟨l1, l2⟩ := limited_good g2 len
      simp only [List.mem_append] at hq
      rcases hq with hq | hq
      · exact l1 q hq
      · exact wantsArms_good arms hb l2 q hq

/-! ### Transforms that are not friendly -/

/-- `fs` is the rest of the items of a container, behind some of them, or of a container among them. -/
inductive Within (fs : Fields) : Fields → Prop
  | here : Within fs fs
  | pad {n e rest} : Within fs rest → Within fs (.pad n e rest)
  | leaf {a ty rest} : Within fs rest → Within fs (.leaf a ty rest)
  | cont {a len items rest} : Within fs rest → Within fs (.cont a len items rest)
  | inner {a len items rest} : Within fs items → Within fs (.cont a len items rest)

theorem Within.wants {fs gs : Fields} (h : Within fs gs) : ∀ r, ∃ r', ∀ q ∈ wantsItems A r' fs, q ∈ wantsItems A r gs := by
  induction h with
  | here => exact fun r => ⟨r, fun _ h => h⟩
  | pad _ ih => exact fun r => (ih r).imp fun r' h q hq => List.mem_cons_of_mem _ (h q hq)
  | leaf _ ih => exact fun r => (ih _).imp fun r' h q hq => List.mem_append_right _ (h q hq)
  | cont _ ih => exact fun r => (ih _).imp fun r' h q hq => List.mem_append_right _ (h q hq)
  | inner _ ih =>
    exact fun r => (ih _).imp fun r' h q hq => List.mem_append_left _ (List.mem_append_right _ (h q hq))

/-- Spec: a type that is a struct, or a name for another type, has the transforms `xs` at itself, at a container or at a field. -/
inductive ReadsBehind (d : Decl) : List XformUse → Prop
  | type : ReadsBehind d d.xfs
  | field {len items a ty rest} : d.body = .struct len items → Within (.leaf a ty rest) items → ReadsBehind d a.xfs
  | container {len items a l is rest} : d.body = .struct len items → Within (.cont a l is rest) items → ReadsBehind d a.xfs

theorem struct_wants_items {d : Decl} {len : Option Expr} {items : Fields} (hd : d.body = .struct len items) {fs : Fields} (h : Within fs items) :
    ∃ r, ∀ q ∈ wantsItems A r fs, q ∈ wants A d := by
  obtain ⟨r, hr⟩ := h.wants (A := A) (limited (behindAll (some .own) d.xfs.reverse) len)
  refine ⟨r, fun q hq => ?_⟩
  unfold wants
  simp only [hd]
  exact List.mem_append_right _ (List.mem_append_right _ (hr q hq))

/-- Spec: the transform does not give a reader that can be searched: it is conditional, or not a `BufRead`. -/
def Blind (A : Api) (x : XformUse) : Prop := x.cond.isSome ∨ (A.xf x.name).buf = false

theorem behindOne_blind {x : XformUse} (hx : Blind A x) (r : Option Rd) : ∀ v, behindOne x r = some v → v.buf A = false := by
  intro v hv
  simp only [behindOne] at hv
  split at hv
  · cases hv
    rfl
  · rename_i hc
    cases r with
    | none => cases hv
    | some u =>
      cases hv
      exact hx.elim (fun h => absurd h hc) fun h => h

theorem wraps_stacked {x y : XformUse}
    (h : ((A.xf y.name).needsBuf = true ∧ Blind A x) ∨ ((A.xf y.name).needsSized = true ∧ x.cond.isSome)) (pre : List XformUse) :
    ∀ (post : List XformUse) (r : Option Rd), ∃ q ∈ wantsXforms r (post ++ x :: y :: pre), ¬ Granted A q
  | [], r => by
    refine ⟨(.wrap y.name, behindOne x r), List.mem_cons_of_mem _ (List.mem_cons_self ..), ?_⟩
    rintro ⟨v, hv, ha⟩
    simp only at hv ha
    rcases h with ⟨h1, h2⟩ | ⟨h1, h2⟩
    · simp [able, h1, behindOne_blind h2 r v hv] at ha
    · simp only [behindOne, h2, if_true, Option.some.injEq] at hv
      subst hv
      simp [able, h1, Rd.sized] at ha
  | z :: post, r => by
    obtain ⟨q, hq, hn⟩ := wraps_stacked h pre post (behindOne z r)
    exact ⟨q, List.mem_cons_of_mem _ hq, hn⟩

/-- **C70, the negative side.** Of two transforms, one around the other (the last one written is the outermost for the reader), rustc refuses the inner one if it needs a `BufRead` and
the outer one does not give it, or needs a reader of known size and the outer one has a condition. -/
theorem stacked_readers_refused (d : Decl) (pre post : List XformUse) (x y : XformUse) (hd : ReadsBehind d (pre ++ y :: x :: post))
    (h : ((A.xf y.name).needsBuf = true ∧ Blind A x) ∨ ((A.xf y.name).needsSized = true ∧ x.cond.isSome)) :
    ∃ q ∈ asked A (genDecl d) atStart, ¬ Granted A q := by
  rw [genDecl_asked]
  have key : ∀ r, ∃ q ∈ wantsXforms r (pre ++ y :: x :: post).reverse, ¬ Granted A q := by
    intro r
    have := wraps_stacked h pre.reverse post.reverse r
    simpa using this
  generalize pre ++ y :: x :: post = xs at hd key
  cases hd with
  | type =>
    obtain ⟨q, hq, hn⟩ := key (some .own)
    exact ⟨q, List.mem_append_left _ hq, hn⟩
  | field hb hw =>
    obtain ⟨r, hr⟩ := struct_wants_items (A := A) hb hw
    obtain ⟨q, hq, hn⟩ := key r
    refine ⟨q, hr q ?_, hn⟩
    simp only [wantsItems]
    exact List.mem_append_left _ (List.mem_append_left _ hq)
  | container hb hw =>
    obtain ⟨r, hr⟩ := struct_wants_items (A := A) hb hw
    obtain ⟨q, hq, hn⟩ := key r
    refine ⟨q, hr q ?_, hn⟩
    simp only [wantsItems]
    exact List.mem_append_left _ (List.mem_append_left _ (List.mem_append_left _ hq))

/-- Spec: to decode the type, another decoder of the specification is called or a terminator is looked for, on the reader itself: in an array without a length that is
a copy of it in memory. -/
def Searches : LTy → Prop
  | .prim _ => False
  | .ref _ foreign _ _ => foreign = false
  | .array el len =>
    match len with
    | .term _ => True
    | .fixed _ => el.resolved = .other ∧ Searches el
    | .unbounded => False

theorem wantsLeaf_searches {r : Option Rd} (hr : ∀ v, r = some v → v.buf A = false) : ∀ {ty : LTy}, Searches ty → ∃ q ∈ wantsLeaf r ty, ¬ Granted A q
  | .prim _, h => h.elim
  | .ref n f res args, h => by
    simp only [Searches] at h
    refine ⟨(.call n, r), by simp [wantsLeaf, h], ?_⟩
    rintro ⟨v, hv, ha⟩
    simp [able, hr v hv] at ha
  | .array el len, h => by
    cases len with
    | term e =>
      refine ⟨(.look, r), List.mem_cons_self .., ?_⟩
      rintro ⟨v, hv, ha⟩
      simp [able, hr v hv] at ha
    | fixed e =>
      simp only [Searches] at h
      obtain ⟨q, hq, hn⟩ := wantsLeaf_searches hr h.2
      exact ⟨q, by simpa only [wantsLeaf, h.1] using hq, hn⟩
    | unbounded => exact h.elim

theorem behindAll_snoc (r : Option Rd) (xs : List XformUse) (x : XformUse) : behindAll r (xs ++ [x]) = behindOne x (behindAll r xs) := by
  induction xs generalizing r with
  | nil => rfl
  | cons y ys ih => exact ih _

/-- **C70, the negative side.** A reference to a type of the specification, or an array with a terminator, cannot be decoded behind a transform that is conditional or does not give a
`BufRead`, as gzip and base64 do not. -/
theorem reference_behind_blind_refused (d : Decl) (len : Option Expr) (items : Fields) (hd : d.body = .struct len items) (a : FAttr) (ty : LTy) (rest : Fields)
    (hw : Within (.leaf a ty rest) items) (x : XformUse) (post : List XformUse) (hx : a.xfs = x :: post) (hb : Blind A x) (hs : Searches ty) :
    ∃ q ∈ asked A (genDecl d) atStart, ¬ Granted A q := by
  rw [genDecl_asked]
  obtain ⟨r, hr⟩ := struct_wants_items (A := A) hd hw
  obtain ⟨q, hq, hn⟩ := wantsLeaf_searches (r := behindAll r a.xfs.reverse) (by
    rw [hx, List.reverse_cons, behindAll_snoc]
    exact behindOne_blind hb _) hs
  refine ⟨q, hr q ?_, hn⟩
  simp only [wantsItems]
  exact List.mem_append_left _ (List.mem_append_right _ hq)

/-- The same for a type that is another name for one, with such a transform. -/
theorem alias_behind_blind_refused (d : Decl) (c : Option Expr) (ty : LTy) (hd : d.body = .leaf c ty) (x : XformUse) (post : List XformUse)
    (hx : d.xfs = x :: post) (hb : Blind A x) (hs : Searches ty) : ∃ q ∈ asked A (genDecl d) atStart, ¬ Granted A q := by
  rw [genDecl_asked]
  obtain ⟨q, hq, hn⟩ := wantsLeaf_searches (r := behindAll (some .own) d.xfs.reverse) (by
    rw [hx, List.reverse_cons, behindAll_snoc]
    exact behindOne_blind hb _) hs
  refine ⟨q, ?_, hn⟩
  unfold wants
  simp only [hd]
  exact List.mem_append_right _ hq

theorem wantsLeaf_none : ∀ ty, ∃ q ∈ wantsLeaf none ty, q.2 = none
  | .prim p => ⟨_, List.mem_singleton.2 rfl, rfl⟩
  | .ref n f res args => ⟨_, List.mem_singleton.2 rfl, rfl⟩
  | .array el len => by
    cases len with
    | term e => exact ⟨_, List.mem_cons_self .., rfl⟩
    | fixed e =>
      simp only [wantsLeaf]
      split
      · exact wantsLeaf_none el
      · exact ⟨_, List.mem_singleton.2 rfl, rfl⟩
    | unbounded => exact ⟨_, List.mem_cons_self .., rfl⟩

/-- **C70, the negative side.** A field with a transform that takes its reader away, as gzip does, can only be the last one that reads: if a field or a
padding follows it, rustc refuses the decoder (use of a moved value). -/
theorem transform_must_be_last (d : Decl) (len : Option Expr) (items : Fields) (hd : d.body = .struct len items) (a : FAttr) (ty : LTy) (x : XformUse)
    (xs : List XformUse) (hx : a.xfs = xs ++ [x]) (hm : (A.xf x.name).moves = true) (next : Fields)
    (hn : (∃ n e rest, next = .pad n e rest) ∨ ∃ b ty' rest, next = .leaf b ty' rest) (hw : Within (.leaf a ty next) items) :
    ∃ q ∈ asked A (genDecl d) atStart, q.2 = none := by
  rw [genDecl_asked]
  unfold wants
  simp only [hd]
  obtain ⟨r', hr⟩ := hw.wants (A := A) (limited (behindAll (some .own) d.xfs.reverse) len)
  have hl : leftBy A r' a.xfs.reverse = none := by
    rw [hx, List.reverse_append]
    simp [leftBy, Api.left, hm]
  have hnone : ∃ q ∈ wantsItems A none next, q.2 = none := by
    rcases hn with ⟨n, e, rest, rfl⟩ | ⟨b, ty', rest, rfl⟩
    · exact ⟨_, List.mem_cons_self .., rfl⟩
    · simp only [wantsItems]
      cases b.xfs.reverse with
      | nil =>
        obtain ⟨q, hq, h⟩ := wantsLeaf_none ty'
        exact ⟨q, List.mem_append_left _ (List.mem_append_right _ hq), h⟩
      | cons y ys => exact ⟨_, List.mem_append_left _ (List.mem_append_left _ (List.mem_cons_self ..)), rfl⟩
  obtain ⟨q, hq, h⟩ := hnone
  refine ⟨q, List.mem_append_right _ (List.mem_append_right _ (hr q ?_)), h⟩
  simp only [wantsItems, hl]
  exact List.mem_append_right _ hq

/-! ### Cases -/

/-- The transforms and types of the prelude: `flate2::read::GzDecoder::new(r: R)` takes its source and is only a `Read` (`prelude/gzip.rs` 20);
`base64::read::DecoderReader::new(r: &mut R, ..)` (`prelude/base64.rs` 17) borrows it and is only a `Read`; `utf8` without a length uses `read_until`
(`prelude/utf8.rs` 51). The signatures in flate2 and base64 0.13 are from their documentation. -/
def preludeApi : Api where
  xf n := if n = "gzip" then ⟨false, false, false, true⟩ else ⟨false, false, true, false⟩
  foreignBuf n k := n == "utf8" && k == 0

def okAll (src : String) : Option Bool := (specOf [] src).map fun sch => sch.all (readersOk preludeApi)

/-- The shape of the test `mcproto` of the repository is fine: the field with the transform is the last one, and nothing in it needs a `BufRead`. -/
theorem packet_readers_ok :
    okAll "import_ffi gzip as transform; type p = container { n: u16, packet: container [n] { m: u8, inner: container { id: u32, data: u8[..] } -> gzip { m > 0u8 } } };" =
      some true := by decide +kernel

/-- Findings: accepted specifications whose decoders rustc refuses. A field behind a compressed one; a reference to a type in a compressed container; one
behind a conditional transform; an array up to a terminator likewise. -/
theorem reader_findings :
    okAll "import_ffi gzip as transform; type p = container { n: u8, data: u8[n] -> gzip, tail: u8 };" = some false ∧
    okAll "import_ffi gzip as transform; type h = container { a: u8 }; type p = container { h: h -> gzip };" = some false ∧
    okAll "import_ffi base64 as transform; type h = container { a: u8 }; type p = container { c: u8, h: h -> base64 { c > 0u8 } };" = some false ∧
    okAll "import_ffi gzip as transform; type p = container { s: u8[..\"q\"] -> gzip };" = some false ∧
    okAll "import_ffi base64 as transform; type p = container { c: u8, s: u8[..\"q\"] -> base64 { c > 0u8 } };" = some false := by decide +kernel

/-- A base64 text in a compressed one cannot be conditional outside: the field is read through gzip (outermost for the reader) with a condition, then base64. -/
example (ty : LTy) : ∃ q ∈ asked preludeApi (genDecl ⟨"t", [], [], .struct none (.leaf ⟨"d", none, [⟨"base64", none, []⟩, ⟨"gzip", some (.bool true), []⟩], none⟩ ty .nil)⟩) atStart,
    ¬ Granted preludeApi q :=
  stacked_readers_refused _ [] [] ⟨"gzip", some (.bool true), []⟩ ⟨"base64", none, []⟩
    (.field (a := ⟨"d", none, [⟨"base64", none, []⟩, ⟨"gzip", some (.bool true), []⟩], none⟩) rfl .here) (.inr ⟨rfl, rfl⟩)

example : ∃ q ∈ asked preludeApi (genDecl ⟨"t", [], [], .struct none (.pad "p" (.bool true) (.leaf ⟨"h", none, [⟨"gzip", none, []⟩], none⟩ (.array (.ref "o" false .other []) (.fixed (.bool true))) .nil))⟩) atStart,
    ¬ Granted preludeApi q :=
  reference_behind_blind_refused _ none _ rfl ⟨"h", none, [⟨"gzip", none, []⟩], none⟩ _ .nil (.pad .here) ⟨"gzip", none, []⟩ [] rfl (.inr rfl) ⟨rfl, rfl⟩

example : ∃ q ∈ asked preludeApi (genDecl ⟨"t", [], [⟨"base64", some (.bool true), []⟩], .leaf none (.ref "o" false .other [])⟩) atStart, ¬ Granted preludeApi q :=
  alias_behind_blind_refused _ none _ rfl ⟨"base64", some (.bool true), []⟩ [] rfl (.inl rfl) rfl

end Verif.Props
