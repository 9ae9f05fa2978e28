import Verif.Model.Compress

/-! # Compression helpers: properties C42, C81 -/
namespace Gofer.Props.Compress
open Gofer.Compress Gofer.Spec.Codec

/-! ### A codec that meets the laws

Data byte `b` is sent as `1, b` on Flush or Close, `0` ends the stream, `120, 156` is the header. -/

/-- Decoder of the example codec. -/
def toyParse : List UInt8 → List UInt8 × Bool
  | [] => ([], false)
  | [x] => ([], x == 0)
  | x :: b :: r => if x = 1 then (b :: (toyParse r).1, (toyParse r).2) else ([], x == 0)

/-- The example codec. -/
def toy : Codec where
  written _ := [120, 156]
  flushed x := x.flatMap fun b => [1, b]
  closed x := (x.flatMap fun b => [1, b]) ++ [0]
  read
    | 120 :: 156 :: r => some (toyParse r)
    | _ => none

theorem toyParse_full (x : List UInt8) : toyParse ((x.flatMap fun b => [1, b]) ++ [0]) = (x, true) := by
  induction x with
  | nil => rfl
  | cons b x ih =>
    rw [List.flatMap_cons, List.append_assoc]
    simp only [List.cons_append, List.nil_append, toyParse, if_true]
    rw [ih]

theorem toyParse_flush (x : List UInt8) : toyParse (x.flatMap fun b => [1, b]) = (x, false) := by
  induction x with
  | nil => rfl
  | cons b x ih =>
    rw [List.flatMap_cons]
    simp only [List.cons_append, List.nil_append, toyParse, if_true]
    rw [ih]

theorem toy_lawful : Lawful toy where
  full x := by
    change some (toyParse ((x.flatMap fun b => [1, b]) ++ [0])) = _
    rw [toyParse_full]
  flush x := by
    change some (toyParse (x.flatMap fun b => [1, b])) = _
    rw [toyParse_flush]
  header x := by simp [toy]

theorem toy_holdsBack : HoldsBack toy := fun x => ⟨[], List.nil_prefix, fun h h' => h h'.symm, rfl⟩

/-! ### C42 -/

/-- C42, as stated: all compress/decompress pairs round trip. -/
def C42_claim : Prop := ∀ (c : Codec), Lawful c → HoldsBack c → ∀ x,
  unZlib c (zlib c x).bytes = ⟨x, false⟩ ∧ unZlib c (zlibLevel (some c) x).bytes = ⟨x, false⟩ ∧
  utilUnZlib c (utilZlib c x).bytes = ⟨x, false⟩ ∧
  ∀ split, Reads true x split → utilUnGzip c (utilGzip c x).bytes split = ⟨x, false⟩

/-- C42. `compress.Zlib`/`compress.Gzip` round trip with `compress.UnZlib`/`UnGzip` and `util.UnZlib`. -/
theorem C42_zlib_roundtrip_partial (c : Codec) (hc : Lawful c) (x : List UInt8) :
    (zlib c x).err = false ∧ unZlib c (zlib c x).bytes = ⟨x, false⟩ ∧ utilUnZlib c (zlib c x).bytes = ⟨x, false⟩ := by
  refine ⟨rfl, ?_, ?_⟩
  · simp only [zlib, unZlib, hc.full]
  · simp only [zlib, utilUnZlib, hc.full]

theorem unGzipLoop_reads {d : List UInt8} {rs : List (List UInt8 × RErr)} (h : Reads true d rs) : unGzipLoop rs = d := by
  induction h with
  | @piece c d rs hc hl hr ih =>
    simp only [unGzipLoop]
    rw [if_neg, ih]
    rintro (h | h)
    · simp at h
    · exact hc (List.eq_nil_of_length_eq_zero h)
  | @last c rest hl _ =>
    simp only [unGzipLoop]
    by_cases hc : c.length = 0
    · rw [if_pos (Or.inr hc)]; exact (List.eq_nil_of_length_eq_zero hc).symm
    · rw [if_neg (by simp [hc])]; simp
  | bad rest hl hok => simp at hok

/-- C42. `util.Gzip` round trips with `util.UnGzip`, however the reader splits the data, and with
`compress.UnGzip`. -/
theorem C42_gzip_roundtrip_partial (c : Codec) (hc : Lawful c) (x : List UInt8) :
    (utilGzip c x).err = false ∧ unZlib c (utilGzip c x).bytes = ⟨x, false⟩ ∧
    ∀ split, Reads true x split → utilUnGzip c (utilGzip c x).bytes split = ⟨x, false⟩ := by
  refine ⟨rfl, ?_, ?_⟩
  · simp only [utilGzip, unZlib, hc.full]
  · intro split hs
    simp only [utilGzip, utilUnGzip, hc.full, unGzipLoop_reads hs]

/-- C42. `compress.ZlibLevel` (Flush, no Close) round trips with `util.UnZlib`, but `compress.UnZlib`
rejects its output for every input. -/
theorem C42_zlibLevel_partial (c : Codec) (hc : Lawful c) (x : List UInt8) :
    (zlibLevel (some c) x).err = false ∧ utilUnZlib c (zlibLevel (some c) x).bytes = ⟨x, false⟩ ∧
    unZlib c (zlibLevel (some c) x).bytes = ⟨[], true⟩ := by
  refine ⟨rfl, ?_, ?_⟩
  · simp only [zlibLevel, utilUnZlib, hc.flush]
  · simp only [zlibLevel, unZlib, hc.flush]

/-- C42. With a level the library does not know, `compress.ZlibLevel` gives its input back, and an error. -/
theorem C42_zlibLevel_invalid (x : List UInt8) : (zlibLevel none x).err = true ∧ (zlibLevel none x).bytes = x := ⟨rfl, rfl⟩

/-- C42. `util.Zlib` loses data for every codec that keeps data back and every non-empty input: `util.UnZlib` returns
a proper prefix and no error, `compress.UnZlib` an error. -/
theorem C42_utilZlib_loses_partial (c : Codec) (hc : HoldsBack c) (x : List UInt8) (hx : x ≠ []) :
    (∃ p, p <+: x ∧ p.length < x.length ∧ utilUnZlib c (utilZlib c x).bytes = ⟨p, false⟩) ∧
    (unZlib c (utilZlib c x).bytes).err = true := by
  obtain ⟨p, h1, h2, h3⟩ := hc x
  refine ⟨⟨p, h1, ?_, by simp only [utilZlib, utilUnZlib, h3]⟩, by simp only [utilZlib, unZlib, h3]⟩
  refine Nat.lt_of_le_of_ne h1.length_le ?_
  intro he
  exact h2 hx (h1.eq_of_length he)

/-- C42 is false. -/
theorem C42_claim_false : ¬ C42_claim := by
  intro h
  have := (h toy toy_lawful toy_holdsBack [7]).2.2.1
  revert this
  decide +kernel

/-! ### C81 -/

/-- C81, as stated: a stream that ends with an error is reported by the decompressor. -/
def C81_claim : Prop := ∀ (c : Codec) (bs d : List UInt8), c.read bs = some (d, false) →
  (unZlib c bs).err = true ∧ (utilUnZlib c bs).err = true ∧
  ∀ split, Reads false d split → (utilUnGzip c bs split).err = true

/-- C81. `compress.UnZlib`/`UnGzip` report an error exactly if the header or the stream is bad. -/
theorem C81_compress_partial (c : Codec) (bs : List UInt8) :
    ((unZlib c bs).err = true ↔ ∀ d, c.read bs ≠ some (d, true)) ∧
    ∀ d, c.read bs = some (d, true) → unZlib c bs = ⟨d, false⟩ := by
  constructor
  · unfold unZlib
    split <;> simp_all
  · intro d hd
    simp only [unZlib, hd]

/-- C81. `util.UnZlib` and `util.UnGzip` never report a bad stream behind a good header; `UnGzip` then
returns a prefix of the delivered data. -/
theorem C81_util_silent_partial (c : Codec) (bs d : List UInt8) (ok : Bool) (hr : c.read bs = some (d, ok)) :
    utilUnZlib c bs = ⟨d, false⟩ ∧
    ∀ split, Reads ok d split → (utilUnGzip c bs split).err = false ∧ (utilUnGzip c bs split).bytes <+: d := by
  refine ⟨by simp only [utilUnZlib, hr], ?_⟩
  intro split hs
  simp only [utilUnGzip, hr]
  refine ⟨trivial, ?_⟩
  clear hr
  induction hs with
  | @piece c d rs hc hl hr ih =>
    simp only [unGzipLoop]
    split
    · exact List.nil_prefix
    · exact List.prefix_append_right_inj _ |>.2 ih
  | @last c rest hl _ =>
    simp only [unGzipLoop]
    split
    · exact List.nil_prefix
    · simp
  | bad rest hl hok => simp [unGzipLoop]

/-- C81 is false. -/
theorem C81_claim_false : ¬ C81_claim := by
  intro h
  have := (h toy [120, 156, 1, 5] [5] (by decide +kernel)).2.1
  revert this
  decide +kernel

/-! ### Concrete cases -/
example : (zlib toy [3, 4]).bytes = [120, 156, 1, 3, 1, 4, 0] := by decide +kernel
example : utilUnZlib toy (utilZlib toy [3, 4]).bytes = ⟨[], false⟩ := by decide +kernel
example : Reads true [1, 2, 3] [([1, 2], .none), ([3], .eof), ([], .eof)] :=
  .piece (c := [1, 2]) (d := [3]) (by simp) (by decide) (.last (c := [3]) [] (by decide) rfl)
example : utilUnGzip toy (utilGzip toy [1, 2, 3]).bytes [([1, 2], .none), ([3], .eof), ([], .eof)] = ⟨[1, 2, 3], false⟩ := by
  decide +kernel

end Gofer.Props.Compress
