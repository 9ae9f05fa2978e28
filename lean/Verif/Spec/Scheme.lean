/-! # Schemes of URLs -/
namespace Gofer.Spec.Scheme

/-- The letters of a scheme (RFC 3986, 3.1). -/
def letters : List Char := "ABCDEFGHIJKLMNOPQRSTUVWXYZabcdefghijklmnopqrstuvwxyz".toList
/-- What else may stand in a scheme, but not first. -/
def others : List Char := "0123456789+-.".toList

def Letter (b : UInt8) : Prop := ∃ c ∈ letters, c.toNat = b.toNat
def Other (b : UInt8) : Prop := ∃ c ∈ others, c.toNat = b.toNat

/-- A scheme: a letter, then letters, digits, `+`, `-`, `.`. -/
def Scheme (sc : List UInt8) : Prop := ∃ a t, sc = a :: t ∧ Letter a ∧ ∀ b ∈ t, Letter b ∨ Other b

end Gofer.Spec.Scheme
