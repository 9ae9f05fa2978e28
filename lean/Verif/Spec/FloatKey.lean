/-!
# The order of floating-point keys

`none` is NaN. Go's `<` is false whenever one side is NaN; the other values are linearly ordered (the two zeros
are one value for `<`).
-/
namespace Gofer.Spec.FloatKey

def lt {K : Type} [LT K] [DecidableLT K] : Option K → Option K → Bool
  | some a, some b => decide (a < b)
  | _, _ => false

end Gofer.Spec.FloatKey
