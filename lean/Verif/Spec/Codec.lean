/-!
# What a compression library promises

The library is used in one way only: a writer is created over a buffer, all data is given in one
`Write`, optionally followed by `Flush` and `Close`. So it is described by the bytes that are in the
buffer after `Write x`, the further bytes that `Flush` or `Close` then emit, and by what the reader
delivers.
-/
namespace Gofer.Spec.Codec

/-- A stream codec (zlib or gzip at a fixed level). `read bs = none` when the header is rejected;
otherwise the data the reader delivers before it ends, and `true` if it ends with io.EOF, `false` if
with an error (corrupt or truncated stream). -/
structure Codec where
  written : List UInt8 → List UInt8
  flushed : List UInt8 → List UInt8
  closed : List UInt8 → List UInt8
  read : List UInt8 → Option (List UInt8 × Bool)

/-- The laws: a closed stream is complete; a stream that was flushed but not closed delivers all data
and then an error, since its end is missing. -/
structure Lawful (c : Codec) : Prop where
  full : ∀ x, c.read (c.written x ++ c.closed x) = some (x, true)
  flush : ∀ x, c.read (c.written x ++ c.flushed x) = some (x, false)
  header : ∀ x, c.written x ≠ []

/-- A codec that keeps data back: without Flush or Close only a proper part of the data is delivered.
(Deflate at the default level keeps at least the bytes of its lookahead window.) -/
def HoldsBack (c : Codec) : Prop :=
  ∀ x, ∃ p, p <+: x ∧ (x ≠ [] → p ≠ x) ∧ c.read (c.written x) = some (p, false)

end Gofer.Spec.Codec
