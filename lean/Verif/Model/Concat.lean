/-!
# `Concat` (util/encode.go:31-37)

A `strings.Builder` (library) is the bytes written so far. Not modelled: strings too long for the memory.
-/
namespace Gofer.Concat

abbrev Str := List UInt8

/-- `Builder.WriteString`. -/
def writeString (b v : Str) : Str := b ++ v

/-- `Concat` (util/encode.go:31-37). -/
def concat (ss : List Str) : Str := ss.foldl writeString []

end Gofer.Concat
