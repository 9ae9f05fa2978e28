/-!
# Association lists
-/
namespace Gofer.Spec.Assoc
variable {K V : Type} [DecidableEq K]

/-- The value of a key. -/
def find (k : K) (es : List (K × V)) : Option V := (es.find? fun p => p.1 = k).map Prod.snd

/-- All entries of other keys, in order. -/
def without (k : K) (es : List (K × V)) : List (K × V) := es.filter fun p => p.1 ≠ k

end Gofer.Spec.Assoc
