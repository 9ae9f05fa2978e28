import Verif.Spec.Codec

/-!
# Model of `compress/compress.go` and `util/compress.go` (zlib and gzip)

`bytes.Buffer` writes never fail, so neither do `Write`, `Flush` and `Close` of the compressors.
Snappy is in `Model/Snappy`. Zstd is a single library call and is not modelled.
-/
namespace Gofer.Compress
open Gofer.Spec.Codec

/-- Go's `(bytes, err)`: `err` is `true` when a non-nil error is returned. -/
structure Out where
  bytes : List UInt8
  err : Bool
deriving DecidableEq

/-- `compress.Zlib` (compress/compress.go:18-29) and `compress.Gzip` (compress/compress.go:60-70):
Write, Close, then take the bytes. -/
def zlib (c : Codec) (input : List UInt8) : Out := ⟨c.written input ++ c.closed input, false⟩

/-- `compress.ZlibLevel` (compress/compress.go:31-43): Write, Flush, take the bytes; `Close` is
deferred, so what it writes comes after the returned slice. `c = none` is an invalid level: the input
is returned with the error. -/
def zlibLevel (c : Option Codec) (bs : List UInt8) : Out :=
  match c with
  | some c => ⟨c.written bs ++ c.flushed bs, false⟩
  | none => ⟨bs, true⟩

/-- `compress.UnZlib` (compress/compress.go:45-58) and `compress.UnGzip` (compress/compress.go:72-85):
a read error is returned, without data. -/
def unZlib (c : Codec) (compressed : List UInt8) : Out :=
  match c.read compressed with
  | none => ⟨[], true⟩
  | some (d, true) => ⟨d, false⟩
  | some (_, false) => ⟨[], true⟩

/-- `util.Zlib` (util/compress.go:18-31): the bytes are taken after Write, before the deferred `Close`;
there is no Flush. The default level is valid. -/
def utilZlib (c : Codec) (bs : List UInt8) : Out := ⟨c.written bs, false⟩

/-- `util.UnZlib` (util/compress.go:33-42): the error of `io.Copy` is dropped. -/
def utilUnZlib (c : Codec) (bs : List UInt8) : Out :=
  match c.read bs with
  | none => ⟨[], true⟩
  | some (d, _) => ⟨d, false⟩

/-- `util.Gzip` (util/compress.go:44-49): `buf` is the named result, so the deferred `Close` writes into
what is returned. -/
def utilGzip (c : Codec) (bs : List UInt8) : Out := ⟨c.written bs ++ c.closed bs, false⟩

/-- Error returned by one `Read`. -/
inductive RErr where
  | none | eof | bad
deriving DecidableEq

/-- The loop of `util.UnGzip` (util/compress.go:55-62) over the results of the successive `Read` calls:
stop at an error other than EOF or when nothing was read, else keep the bytes. -/
def unGzipLoop : List (List UInt8 × RErr) → List UInt8
  | [] => []
  | (c, e) :: rest => if e = .bad ∨ c.length = 0 then [] else c ++ unGzipLoop rest

/-- The results a reader may give for the data `d` that ends well (`ok`) or with an error: non-empty
pieces, then EOF or the error, possibly together with the last piece. After the end it stays there. -/
inductive Reads (ok : Bool) : List UInt8 → List (List UInt8 × RErr) → Prop where
  | piece {c d rs} : c ≠ [] → c.length ≤ 1024 → Reads ok d rs → Reads ok (c ++ d) ((c, .none) :: rs)
  | last {c} (rest) : c.length ≤ 1024 → ok = true → Reads ok c ((c, .eof) :: ([], .eof) :: rest)
  | bad {c} (rest) : c.length ≤ 1024 → ok = false → Reads ok c ((c, .bad) :: rest)

/-- `util.UnGzip` (util/compress.go:51-67): `split` are the results of the Read calls. The `err` assigned
in the loop is a shadowed variable, so only a header error is reported. -/
def utilUnGzip (c : Codec) (bs : List UInt8) (split : List (List UInt8 × RErr)) : Out :=
  match c.read bs with
  | none => ⟨[], true⟩
  | some _ => ⟨unGzipLoop split, false⟩

/-- `util.CheckGzipType` (util/compress.go:69-74): the error of reading the header. -/
def checkGzipType (c : Codec) (bs : List UInt8) : Bool := (c.read bs).isNone

end Gofer.Compress
