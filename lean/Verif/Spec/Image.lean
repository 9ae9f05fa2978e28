/-!
# What is expected of `image`

Independent of the code: magic numbers of file formats, boxes, pictures and their parts.
-/
namespace Gofer.Spec.Image

/-- The magic numbers of the formats `imageType` knows, as documented in image.go (430-455). -/
def magics : List (String × List UInt8) :=
  [("png", [0x89, 0x50, 0x4E, 0x47, 0x0D, 0x0A, 0x1A, 0x0A]), ("bmp", [0x42, 0x4D]), ("jpeg", [0xFF, 0xD8]),
   ("gif", [0x47, 0x49, 0x46, 0x38, 0x39, 0x61]), ("gif", [0x47, 0x49, 0x46, 0x38, 0x37, 0x61]),
   ("tiff", [0x49, 0x49, 0x2A, 0x00]), ("tiff", [0x4D, 0x4D, 0x00, 0x2A]), ("webp", [0x52, 0x49, 0x46, 0x46]),
   ("psd", [0x38, 0x42, 0x50, 0x53]), ("ico", [0x00, 0x00, 0x01, 0x00]), ("avif", [0x00, 0x00, 0x00, 0x0C, 0x61, 0x76, 0x69, 0x66])]

/-- A RIFF file of the given kind: "RIFF", four bytes of length, the kind. -/
def isRiff (kind d : List UInt8) : Prop := ∃ len rest : List UInt8, len.length = 4 ∧ d = [0x52, 0x49, 0x46, 0x46] ++ len ++ kind ++ rest
/-- "WAVE" and "WEBP". -/
def wave : List UInt8 := [0x57, 0x41, 0x56, 0x45]
def webp : List UInt8 := [0x57, 0x45, 0x42, 0x50]

/-- An AVIF file (ISO/IEC 23000-22): the first box is "ftyp" with the brand "avif", after four bytes of length. -/
def isAvif (d : List UInt8) : Prop :=
  ∃ len rest : List UInt8, len.length = 4 ∧ d = len ++ [0x66, 0x74, 0x79, 0x70] ++ [0x61, 0x76, 0x69, 0x66] ++ rest

/-- `r` shows the part of a picture that starts at column `x`, row `y` and has `w` columns and `h` rows. Pictures are given by size and
pixels counted from their own corner. -/
def shows {α : Type} (pic : Int → Int → α) (x y w h : Int) (rw rh : Int) (r : Int → Int → α) : Prop :=
  rw = w ∧ rh = h ∧ ∀ i j, 0 ≤ i → i < w → 0 ≤ j → j < h → r i j = pic (x + i) (y + j)

/-- The part of `a, a+1, …, a+len-1` that lies in `0, …, n-1`: where it starts and its length. -/
def cut (a len n : Int) : Int × Int := (max a 0, min (a + len) n - max a 0)

end Gofer.Spec.Image
