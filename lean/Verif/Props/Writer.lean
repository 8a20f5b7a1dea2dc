import Verif.Props.Survive
import Verif.Writer
/-!
# C62: writers that fail
-/
namespace Verif.Props
open Verif Verif.Enc

/-- **C62, nothing but the beginning.** For every schema, library, type, arguments and value that can be encoded, and every number of
bytes after which the writer fails: the bytes it has then are the first bytes of the encoding, in order and without gaps. -/
theorem failing_writer_has_the_beginning (sch : Schema) (L : Lib) (M : LibW) (hM : LibMeets false L M) (fuel : Nat) (name : String)
    (args : List Val) (v : Val) (bs : Bytes) (h : runEncode sch L fuel name args v = .ok bs) (room : Nat) :
    (runEncodeW sch M fuel name args v (some room)).1 = bs.take room := by
  have := runEncodeW_meets hM sch fuel name args v (some room)
  rw [h] at this
  exact this.1

/-- **C62, no false alarm.** If the whole encoding fits, the encoder returns `Ok`. -/
theorem enough_room_is_ok (sch : Schema) (L : Lib) (M : LibW) (hM : LibMeets false L M) (fuel : Nat) (name : String)
    (args : List Val) (v : Val) (bs : Bytes) (h : runEncode sch L fuel name args v = .ok bs) (room : Nat) (hr : bs.length ≤ room) :
    runEncodeW sch M fuel name args v (some room) = (bs, .ok ()) := by
  have := runEncodeW_meets hM sch fuel name args v (some room)
  rw [h] at this
  obtain ⟨h1, h2, _⟩ := this
  refine Prod.ext ?_ (h2 (by simpa [fits] using hr))
  rw [h1]
  exact List.take_of_length_le hr

/-- **C62, no failure goes unnoticed (partial).** If the writers of the transforms leave nothing to be written by their destructors: the encoder returns `Ok`
exactly if the writer has taken the whole encoding, and otherwise the error of the writer.

Missing: transforms that write in their destructor, as that of gzip does; false for them, `lost_trailer_finding`. -/
theorem failure_is_reported_partial (sch : Schema) (L : Lib) (M : LibW) (hM : LibMeets true L M) (fuel : Nat) (name : String)
    (args : List Val) (v : Val) (bs : Bytes) (h : runEncode sch L fuel name args v = .ok bs) (room : Nat) :
    (runEncodeW sch M fuel name args v (some room)).2 = (if bs.length ≤ room then .ok () else .error ioFault) ∧
    ((runEncodeW sch M fuel name args v (some room)).2 = .ok () → (runEncodeW sch M fuel name args v (some room)).1 = bs) := by
  have := runEncodeW_meets hM sch fuel name args v (some room)
  rw [h] at this
  obtain ⟨h1, h2, _, h4⟩ := this
  by_cases hr : bs.length ≤ room
  · rw [if_pos hr]
    exact ⟨h2 (by simpa [fits] using hr), fun _ => by rw [h1]; exact List.take_of_length_le hr⟩
  · rw [if_neg hr]
    have hio := h4 rfl (by simpa [fits] using hr)
    refine ⟨hio, fun hok => ?_⟩
    rw [hio] at hok
    cases hok

/-- **C62, what cannot be encoded.** A value on which the encoder fails, fails on any writer: with the same error, or with that of the writer. -/
theorem failing_value_fails_on_any_writer (sch : Schema) (L : Lib) (M : LibW) (hM : LibMeets false L M) (fuel : Nat) (name : String)
    (args : List Val) (v : Val) (f : Fault) (h : runEncode sch L fuel name args v = .error f) (room : Option Nat) :
    (runEncodeW sch M fuel name args v room).2 = .error f ∨ (runEncodeW sch M fuel name args v room).2 = .error ioFault := by
  have := runEncodeW_meets hM sch fuel name args v room
  rw [h] at this
  exact this

/-- A `Vec` never fails: the encoder gives what C02 speaks about. -/
theorem vec_gets_everything (sch : Schema) (L : Lib) (M : LibW) (hM : LibMeets false L M) (fuel : Nat) (name : String)
    (args : List Val) (v : Val) (bs : Bytes) (h : runEncode sch L fuel name args v = .ok bs) :
    runEncodeW sch M fuel name args v none = (bs, .ok ()) := by
  have := runEncodeW_meets hM sch fuel name args v none
  rw [h] at this
  exact Prod.ext this.1 (this.2.1 rfl)

/-! ### Cases -/

/-- Foreign types that write with `write_all` only, and transforms that write everything in `flush`. -/
def Lib.flushing (L : Lib) : LibW :=
  ⟨L.oc, fun n vs v room => match L.foreign n vs v with
      | .ok bs => writeAll bs room
      | .error f => ([], .error f),
    fun n vs d => (L.xform n vs d).map fun b => (b, [])⟩

theorem flushing_meets (L : Lib) : LibMeets true L (Lib.flushing L) := by
  refine ⟨rfl, fun n vs v room => ?_, fun n vs d => ?_, fun _ n vs d o h => ?_⟩
  · simp only [Lib.flushing]
    cases L.foreign n vs v with
    | ok bs =>
      have := writeAll_meets true bs room
      exact ⟨this.1, this.2.1, this.2.2.1, fun _ => this.2.2.2 rfl⟩
    | error f => exact .inl rfl
  · simp only [Lib.flushing]
    cases L.xform n vs d <;> simp [Except.map]
  · simp only [Lib.flushing] at h
    cases hx : L.xform n vs d with
    | error f => rw [hx] at h; cases h
    | ok b => rw [hx] at h; cases h; rfl

theorem meets_weaken {strict : Bool} {L : Lib} {M : LibW} (h : LibMeets strict L M) : LibMeets false L M := by
  refine ⟨h.oc, fun n vs v room => ?_, h.xform, fun hf => (by cases hf)⟩
  have := h.foreign n vs v room
  revert this
  cases L.foreign n vs v with
  | ok bs => exact fun h => ⟨h.1, h.2.1, h.2.2.1, fun hf => (by cases hf)⟩
  | error f => exact id

def treeVal : Val := .struct "node" [("kids", vu8 1), ("name", .arr [vu8 65]), ("children", .arr [.struct "node"
  [("kids", vu8 0), ("name", .arr []), ("children", .arr [])]])]

theorem tree_encodes : runEncode treeSchema noEncLib 3 "node" [] treeVal = .ok [1, 65, 0] := by decide +kernel

/-- A recursive type: the error of the innermost call comes out, the bytes before it are there. -/
theorem tree_on_a_failing_writer (room : Nat) :
    runEncodeW treeSchema (Lib.flushing noEncLib) 3 "node" [] treeVal (some room)
      = (([1, 65, 0] : Bytes).take room, if 3 ≤ room then .ok () else .error ioFault) :=
  Prod.ext (failing_writer_has_the_beginning _ _ _ (meets_weaken (flushing_meets _)) _ _ _ _ _ tree_encodes room)
    (failure_is_reported_partial _ _ _ (flushing_meets _) _ _ _ _ _ tree_encodes room).1

/-! #### gzip -/

/-- A stand-in for gzip: `flush` writes the data behind a header, the destructor the trailer. -/
def zipW : LibW := ⟨true, fun _ _ _ _ => ([], .error .ill), fun _ _ d => .ok (31 :: UInt8.ofNat d.length :: d, [99])⟩
def zipLib : Lib := ⟨true, fun _ _ _ => .error .ill, fun _ _ d => .ok (31 :: UInt8.ofNat d.length :: d ++ [99])⟩

theorem zip_meets : LibMeets false zipLib zipW :=
  ⟨rfl, fun _ _ _ _ => .inl rfl, fun _ _ _ => rfl, fun h => by cases h⟩

def zipSource : String := "import_ffi gzip as transform; type a = container { d: u8[..] -> gzip };"
def zipSchema : Schema := [⟨"a", [], [], .struct none
  (.leaf ⟨"d", none, [⟨"gzip", none, []⟩], none⟩ (.array u8T .unbounded) .nil)⟩]
theorem zip_spec : specOf [] zipSource = some zipSchema := by decide +kernel

/-- Finding: the encoder returns `Ok` although the writer has failed and the end of the message is lost: `drop(stream)` swallows the error of
what the destructor writes. -/
theorem lost_trailer_finding :
    runEncode zipSchema zipLib 1 "a" [] (.struct "a" [("d", .arr [vu8 7])]) = .ok [31, 1, 7, 99] ∧
    runEncodeW zipSchema zipW 1 "a" [] (.struct "a" [("d", .arr [vu8 7])]) (some 3) = ([31, 1, 7], .ok ()) := by
  decide +kernel

end Verif.Props
