/-!
# Bytes of a file at an offset
-/
namespace Gofer.Spec.FileAt

/-- The file `f` holds `d` at offset `off`. -/
def Holds (f : List UInt8) (off : Nat) (d : List UInt8) : Prop := ∃ a b, f = a ++ d ++ b ∧ a.length = off

/-- `g` is `f` with `d` put at `off`: there are the bytes of `d`, every other byte of `f` is as before, and what lies between
the end of `f` and `off` is zero. -/
def Put (f g : List UInt8) (off : Nat) (d : List UInt8) : Prop :=
  g.length = max f.length (off + d.length) ∧
  (∀ i, i < d.length → g[off + i]? = d[i]?) ∧
  (∀ i, i < f.length → ¬ (off ≤ i ∧ i < off + d.length) → g[i]? = f[i]?) ∧
  (∀ i, f.length ≤ i → i < off → g[i]? = some 0)

end Gofer.Spec.FileAt
