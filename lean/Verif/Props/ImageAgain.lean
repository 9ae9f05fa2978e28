import Verif.Proof.ImageAgain
import Verif.Props.ImageTr
/-!
# Property theorems: resizing once more, the fields of `Options`, files (C200 - C202)
-/
namespace Gofer.Props.ImageAgain
open Gofer.ImageTr Gofer.Image Gofer.F64 Gofer.ImageAgain
open Gofer.Spec.Picture
open Gofer.Props.Image (fitsEdges)

/-! ## C200: the same request a second time -/

/-- The size after the same request has been applied `n` times. -/
def times (mode pw ph : Int) : Nat → Int × Int → Int × Int
  | 0, s => s
  | n + 1, s => modeSize mode (times mode pw ph n s).1 (times mode pw ph n s).2 pw ph

/-- The claim: the second time nothing changes. -/
def C200_claim : Prop :=
  ∀ mode w h pw ph : Int, 1 ≤ w → w ≤ 2 ^ 25 → 1 ≤ h → h ≤ 2 ^ 25 → 0 ≤ pw → 0 ≤ ph →
    times mode pw ph 2 (w, h) = times mode pw ph 1 (w, h)

/-- Mode 0: 400 x 100 asked to be 200 x 90 becomes 360 x 90, and then 200 x 50. Mode 5: 300 x 250 asked to be 100 x 200 becomes 100 x 200, and then 100 x 100. -/
theorem C200_shrinks : (times 0 200 90 1 (400, 100) = (360, 90) ∧ times 0 200 90 2 (400, 100) = (200, 50)) ∧
    (times 5 100 200 1 (300, 250) = (100, 200) ∧ times 5 100 200 2 (300, 250) = (100, 100)) := by decide +kernel

theorem C200_claim_false : ¬ C200_claim := by
  intro h
  have := h 0 400 100 200 90 (by decide) (by decide) (by decide) (by decide) (by decide) (by decide)
  revert this
  decide +kernel

theorem fits0 {w h pw ph : Int} (hw : 1 ≤ w) (hh : 1 ≤ h) (hpos : 0 < pw ∨ 0 < ph)
    (hf : if h ≤ w then (pw = 0 ∨ w ≤ pw) ∧ (ph = 0 ∨ h ≤ ph) else (pw = 0 ∨ h ≤ pw) ∧ (ph = 0 ∨ w ≤ ph)) : modeSize 0 w h pw ph = (w, h) := by
  rw [size_scale hw hh hpos (mode0_eq w h pw ph)]
  split
  · rfl
  · rw [min_same, resize_self hw hh]
    · unfold newSide4mode
      split at hf
      · rename_i hl; rw [if_pos hl]; exact hf.1
      · rename_i hl; rw [if_neg hl]; exact hf.2
    · unfold newSide4mode
      split at hf
      · rename_i hl; rw [if_pos hl]; exact hf.2
      · rename_i hl; rw [if_neg hl]; exact hf.1

/-- What mode 0 gives. -/
theorem gives0 {w h pw ph : Int} (hw : 1 ≤ w) (hw' : w ≤ 2 ^ 25) (hh : 1 ≤ h) (hh' : h ≤ 2 ^ 25) (h1 : 0 ≤ pw) (h2 : 0 ≤ ph) (hpos : 0 < pw ∨ 0 < ph) {X : Int × Int}
    (e : modeSize 0 w h pw ph = X) :
    X = (w, h) ∨ ((1 ≤ X.1 ∧ 1 ≤ X.2) ∧ (if h ≤ w then X.2 ≤ X.1 ∧ ((pw ≠ 0 ∧ X.1 = pw) ∨ (ph ≠ 0 ∧ X.2 = ph)) else X.1 ≤ X.2 ∧ ((ph ≠ 0 ∧ X.1 = ph) ∨ (pw ≠ 0 ∧ X.2 = pw)))) := by
  rw [size_scale hw hh hpos (mode0_eq w h pw ph)] at e
  split at e
  · exact .inl e.symm
  · have hb : 0 ≤ (newSide4mode w h pw ph).1 ∧ 0 ≤ (newSide4mode w h pw ph).2 := by
      unfold newSide4mode; split <;> exact ⟨by assumption, by assumption⟩
    rcases min_gives hw hw' hh hh' hb.1 hb.2 e.symm with hx | ⟨hx, hor, hs⟩
    · exact .inl hx
    · right
      refine ⟨hx, ?_⟩
      unfold newSide4mode at hs
      by_cases hl : h ≤ w
      · rw [if_pos hl] at hs ⊢
        exact ⟨hor.1 hl, hs⟩
      · rw [if_neg hl] at hs ⊢
        exact ⟨hor.2 (by omega), hs⟩

/-- A side left open: mode 0 does nothing the second time. -/
theorem again0_open {w h pw ph : Int} (hw : 1 ≤ w) (hw' : w ≤ 2 ^ 25) (hh : 1 ≤ h) (hh' : h ≤ 2 ^ 25) (h1 : 0 ≤ pw) (h2 : 0 ≤ ph) (hpos : 0 < pw ∨ 0 < ph)
    (hz : pw = 0 ∨ ph = 0) {X : Int × Int} (e : modeSize 0 w h pw ph = X) : modeSize 0 X.1 X.2 pw ph = X := by
  rcases gives0 hw hw' hh hh' h1 h2 hpos e with hx | ⟨hx, hs⟩
  · subst hx; exact e
  · apply fits0 hx.1 hx.2 hpos
    split at hs <;> split <;> omega

/-- A side within its bound at the start: the same. -/
theorem again0_fits {w h pw ph : Int} (hw : 1 ≤ w) (hw' : w ≤ 2 ^ 25) (hh : 1 ≤ h) (hh' : h ≤ 2 ^ 25) (h1 : 1 ≤ pw) (h2 : 1 ≤ ph) {X : Int × Int}
    (e : modeSize 0 w h pw ph = X) (hf : fitsEdges w h X.1 X.2 pw ph) : modeSize 0 X.1 X.2 pw ph = X := by
  rcases gives0 hw hw' hh hh' (by omega) (by omega) (by omega) e with hx | ⟨hx, hs⟩
  · subst hx; exact e
  · apply fits0 hx.1 hx.2 (by omega)
    unfold fitsEdges at hf
    split at hs <;> split at hf <;> split <;> omega

/-- After one pass one of the sides is within its bound, so the next pass fits. -/
theorem next0_fits {w h pw ph : Int} (hw : 1 ≤ w) (hw' : w ≤ 2 ^ 25) (hh : 1 ≤ h) (hh' : h ≤ 2 ^ 25) (h1 : 1 ≤ pw) (h2 : 1 ≤ ph) {X : Int × Int}
    (e : modeSize 0 w h pw ph = X) : X = (w, h) ∨ ((1 ≤ X.1 ∧ X.1 ≤ 2 ^ 25) ∧ (1 ≤ X.2 ∧ X.2 ≤ 2 ^ 25) ∧
      fitsEdges X.1 X.2 (modeSize 0 X.1 X.2 pw ph).1 (modeSize 0 X.1 X.2 pw ph).2 pw ph) := by
  have hle := Gofer.Image.mode_le hw (by omega) hh (by omega) pw ph (mode := 0) (by decide)
  rw [e] at hle
  rcases gives0 hw hw' hh hh' (by omega) (by omega) (by omega) e with hx | ⟨hx, hs⟩
  · exact .inl hx
  · right
    refine ⟨⟨hx.1, by omega⟩, ⟨hx.2, by omega⟩, ?_⟩
    apply Gofer.Props.Image.C104_box_partial hx.1 (by omega) hx.2 (by omega) h1 h2
    right
    split at hs <;> omega

/-- Where the claim holds: modes 1 to 4 and the modes that do nothing; mode 0 if a side is left open, or the picture has come to fit the box (it does under the hypotheses
of `C104_box_partial`); mode 5 if the box is not higher than wide, or the width is left open. Missing, because false (`C200_shrinks`): modes 0 and 5 otherwise. -/
theorem C200_again_partial (mode : Int) {w h pw ph : Int} (hw : 1 ≤ w) (hw' : w ≤ 2 ^ 25) (hh : 1 ≤ h) (hh' : h ≤ 2 ^ 25) (h1 : 0 ≤ pw) (h2 : 0 ≤ ph)
    (h0 : mode = 0 → pw = 0 ∨ ph = 0 ∨ fitsEdges w h (modeSize 0 w h pw ph).1 (modeSize 0 w h pw ph).2 pw ph) (h5 : mode = 5 → pw = 0 ∨ ph ≤ pw) :
    times mode pw ph 2 (w, h) = times mode pw ph 1 (w, h) := by
  show modeSize mode (modeSize mode w h pw ph).1 (modeSize mode w h pw ph).2 pw ph = modeSize mode w h pw ph
  by_cases hpos : 0 < pw ∨ 0 < ph
  swap
  · rw [modeSize_eq mode w h, if_neg hpos, modeSize_eq, if_neg hpos]
  by_cases m0 : mode = 0
  · subst m0
    by_cases hz : pw = 0 ∨ ph = 0
    · exact again0_open hw hw' hh hh' h1 h2 hpos hz rfl
    · rcases h0 rfl with hc | hc | hc
      · omega
      · omega
      · exact again0_fits hw hw' hh hh' (by omega) (by omega) rfl hc
  by_cases m1 : mode = 1
  · subst m1; exact again1 hw hh h1 h2 hpos
  by_cases m2 : mode = 2
  · subst m2; exact again2 hw hw' hh hh' h1 h2 hpos
  by_cases m3 : mode = 3
  · subst m3; exact again3 hw hw' hh hh' h1 h2 hpos
  by_cases m4 : mode = 4
  · subst m4; exact again4 hw hw' hh hh' h1 h2 hpos
  by_cases m5 : mode = 5
  · subst m5; exact again5 hw hh h1 h2 hpos (h5 rfl)
  · have e : ∀ a b, 1 ≤ a → 1 ≤ b → modeSize mode a b pw ph = (a, b) := by
      intro a b ha hb
      rw [modeSize_eq, if_pos hpos, other_eq m0 m1 m2 m3 m4 m5]
      exact resize_self ha hb
    rw [e w h hw hh, e w h hw hh]

example : times 0 640 480 1 (1920, 1080) = (853, 480) ∧ fitsEdges 1920 1080 640 360 640 480 ∧ times 0 640 300 2 (1920, 1080) = (533, 300) ∧
    times 2 0 10 2 (300, 40) = times 2 0 10 1 (300, 40) := by
  unfold fitsEdges; decide +kernel

/-- In mode 0 with two bounds, exactly the requests that do not come to fit change something the second time. -/
theorem C200_mode0_iff {w h pw ph : Int} (hw : 1 ≤ w) (hw' : w ≤ 2 ^ 25) (hh : 1 ≤ h) (hh' : h ≤ 2 ^ 25) (h1 : 1 ≤ pw) (h2 : 1 ≤ ph) (hne : times 0 pw ph 1 (w, h) ≠ (w, h)) :
    times 0 pw ph 2 (w, h) = times 0 pw ph 1 (w, h) ↔
      max (times 0 pw ph 1 (w, h)).1 (times 0 pw ph 1 (w, h)).2 ≤ pw ∧ min (times 0 pw ph 1 (w, h)).1 (times 0 pw ph 1 (w, h)).2 ≤ ph := by
  show modeSize 0 (modeSize 0 w h pw ph).1 (modeSize 0 w h pw ph).2 pw ph = modeSize 0 w h pw ph ↔
    max (modeSize 0 w h pw ph).1 (modeSize 0 w h pw ph).2 ≤ pw ∧ min (modeSize 0 w h pw ph).1 (modeSize 0 w h pw ph).2 ≤ ph
  have hne' : modeSize 0 w h pw ph ≠ (w, h) := hne
  constructor
  · intro he
    rcases next0_fits hw hw' hh hh' h1 h2 (X := modeSize 0 w h pw ph) rfl with hx | ⟨-, -, hf⟩
    · exact absurd hx hne'
    · rw [he] at hf
      unfold fitsEdges at hf
      split at hf <;> omega
  · rintro ⟨hmax, hmin⟩
    rcases gives0 hw hw' hh hh' (by omega) (by omega) (by omega) (X := modeSize 0 w h pw ph) rfl with hx | ⟨hx, hs⟩
    · exact absurd hx hne'
    · apply again0_fits hw hw' hh hh' h1 h2 rfl
      unfold fitsEdges
      split at hs
      · rw [if_pos (by assumption)]; omega
      · rw [if_neg (by assumption)]; omega

example : times 0 200 90 1 (400, 100) ≠ (400, 100) ∧ ¬ (max (times 0 200 90 1 (400, 100)).1 (times 0 200 90 1 (400, 100)).2 ≤ 200) := by decide +kernel

/-- The third time nothing changes, in any mode. -/
theorem C200_third (mode : Int) {w h pw ph : Int} (hw : 1 ≤ w) (hw' : w ≤ 2 ^ 25) (hh : 1 ≤ h) (hh' : h ≤ 2 ^ 25) (h1 : 0 ≤ pw) (h2 : 0 ≤ ph) :
    times mode pw ph 3 (w, h) = times mode pw ph 2 (w, h) := by
  have pass : times mode pw ph 2 (w, h) = times mode pw ph 1 (w, h) → times mode pw ph 3 (w, h) = times mode pw ph 2 (w, h) := by
    intro he
    show modeSize mode (times mode pw ph 2 (w, h)).1 (times mode pw ph 2 (w, h)).2 pw ph = _
    rw [he]
    exact he
  by_cases m0 : mode = 0 ∧ pw ≠ 0 ∧ ph ≠ 0
  · obtain ⟨rfl, z1, z2⟩ := m0
    rcases next0_fits hw hw' hh hh' (by omega) (by omega) (X := modeSize 0 w h pw ph) rfl with hx | ⟨x1, x2, hf⟩
    · apply pass
      show modeSize 0 (modeSize 0 w h pw ph).1 (modeSize 0 w h pw ph).2 pw ph = modeSize 0 w h pw ph
      rw [hx, hx]
    · exact again0_fits x1.1 x1.2 x2.1 x2.2 (by omega) (by omega) (X := times 0 pw ph 2 (w, h)) rfl hf
  · by_cases m5 : mode = 5 ∧ (0 < pw ∨ 0 < ph)
    · obtain ⟨rfl, hpos⟩ := m5
      exact again5' hw hh h1 h2 hpos rfl
    · apply pass
      by_cases hpos : 0 < pw ∨ 0 < ph
      · exact C200_again_partial mode hw hw' hh hh' h1 h2 (fun h => by omega) (fun h => by omega)
      · show modeSize mode (modeSize mode w h pw ph).1 (modeSize mode w h pw ph).2 pw ph = modeSize mode w h pw ph
        rw [modeSize_eq mode w h, if_neg hpos, modeSize_eq, if_neg hpos]

example : times 0 200 90 3 (400, 100) = (200, 50) ∧ times 5 100 200 3 (300, 250) = (100, 100) := by decide +kernel

/-- The size `Encode` without options gives. -/
theorem tr_size {lib : Lib} (hl : Sized lib) (filter mode pw ph : Int) (img : I) (hw : 1 ≤ img.b.dx) (hh : 1 ≤ img.b.dy) :
    ((tr lib filter mode pw ph {} img).b.dx, (tr lib filter mode pw ph {} img).b.dy) = modeSize mode img.b.dx img.b.dy pw ph := by
  have : tr lib filter mode pw ph {} img = sizeStep lib filter mode pw ph img := by
    unfold tr
    simp [cropStep, scaleStep]
  rw [this]
  exact sizeStep_size hl filter mode pw ph img hw hh

/-- The pictures: where the size stays, the pixels stay. -/
theorem C200_pictures {lib : Lib} (filter mode pw ph : Int) (img : I) (hw : 1 ≤ img.b.dx) (hh : 1 ≤ img.b.dy)
    (hs : modeSize mode img.b.dx img.b.dy pw ph = (img.b.dx, img.b.dy)) :
    (view (tr lib filter mode pw ph {} img)).Same (view img) := Gofer.Props.ImageTr.C175_same_size lib filter mode pw ph img hw hh hs

/-! ## C202: files -/

/-- A type of file that keeps what is drawn: every image with pixels can be written, and reading gives the same picture and the same type. -/
def Lossless (files : Gofer.Image.Lib I) (t : String) : Prop :=
  ∀ img : I, 1 ≤ img.b.dx → 1 ≤ img.b.dy → ∃ out img', files.enc t img = some out ∧ files.dec out = some (img', t) ∧ (view img').Same (view img)

/-- `Resize` of a file of such a type gives a file of the same type whose picture has the size of the mode (`modeSize`: C70, C104 - C106). -/
theorem C202_size {files : Gofer.Image.Lib I} {lib : Lib} (hl : Sized lib) {t : String} (ht : t ∈ ["jpeg", "png", "gif", "bmp", "tiff", "webp"]) (hc : Lossless files t)
    (filter mode : Int) {pw ph : Int} (hpos : 0 < pw ∨ 0 < ph) {src : List UInt8} {img : I} (hd : files.dec src = some (img, t))
    (hw : 1 ≤ img.b.dx) (hh : 1 ≤ img.b.dy) (hm : 1 ≤ (modeSize mode img.b.dx img.b.dy pw ph).1 ∧ 1 ≤ (modeSize mode img.b.dx img.b.dy pw ph).2) :
    ∃ img', files.dec (resizeFile files lib filter mode pw ph src) = some (img', t) ∧ ((view img').w, (view img').h) = modeSize mode img.b.dx img.b.dy pw ph ∧
      (view img').Same (view (tr lib filter mode pw ph {} img)) := by
  have sz := tr_size hl filter mode pw ph img hw hh
  have z1 := congrArg Prod.fst sz
  have z2 := congrArg Prod.snd sz
  simp only at z1 z2
  obtain ⟨out, img', e1, e2, e3⟩ := hc (tr lib filter mode pw ph {} img) (by omega) (by omega)
  have tn : t ≠ "" := by
    intro h
    subst h
    simp at ht
  refine ⟨img', ?_, ?_, e3⟩
  · unfold resizeFile
    rw [if_neg (by omega)]
    unfold encodeOpts Gofer.Image.encode
    have ht' : t ∈ encTypes := ht
    simp only [hd, if_true, if_neg tn, if_pos ht', e1, Option.getD_some]
    exact e2
  · rw [← sz]
    exact Prod.ext e3.1 e3.2.1

/-- `Resize` to 0 x 0, and of data that cannot be read or is of a type that cannot be written, gives the data back. -/
theorem C202_untouched (files : Gofer.Image.Lib I) (lib : Lib) (filter mode : Int) (src : List UInt8) :
    resizeFile files lib filter mode 0 0 src = src ∧
    (files.dec src = none → ∀ pw ph, resizeFile files lib filter mode pw ph src = src) ∧
    ∀ img t, files.dec src = some (img, t) → t ≠ "" → t ∉ ["jpeg", "png", "gif", "bmp", "tiff", "webp"] → ∀ pw ph, resizeFile files lib filter mode pw ph src = src := by
  refine ⟨by simp [resizeFile], fun h pw ph => ?_, fun img t h tn ht pw ph => ?_⟩
  · unfold resizeFile encodeOpts Gofer.Image.encode
    split
    · rfl
    · rw [h]
  · unfold resizeFile encodeOpts Gofer.Image.encode
    split
    · rfl
    · have ht' : t ∉ encTypes := ht
      simp only [h, if_true, if_neg tn, if_neg ht']

/-- The same `Resize` of the result gives the same picture again, where C200 holds. -/
theorem C202_again {files : Gofer.Image.Lib I} {lib : Lib} (hl : Sized lib) {t : String} (ht : t ∈ ["jpeg", "png", "gif", "bmp", "tiff", "webp"]) (hc : Lossless files t)
    (filter mode : Int) {pw ph : Int} (hpos : 0 < pw ∨ 0 < ph) {src : List UInt8} {img : I} (hd : files.dec src = some (img, t))
    (hw : 1 ≤ img.b.dx) (hh : 1 ≤ img.b.dy) (hm : 1 ≤ (modeSize mode img.b.dx img.b.dy pw ph).1 ∧ 1 ≤ (modeSize mode img.b.dx img.b.dy pw ph).2)
    (ha : times mode pw ph 2 (img.b.dx, img.b.dy) = times mode pw ph 1 (img.b.dx, img.b.dy)) :
    ∃ img1 img2, files.dec (resizeFile files lib filter mode pw ph src) = some (img1, t) ∧
      files.dec (resizeFile files lib filter mode pw ph (resizeFile files lib filter mode pw ph src)) = some (img2, t) ∧ (view img2).Same (view img1) := by
  obtain ⟨img1, d1, s1, -⟩ := C202_size hl ht hc filter mode hpos hd hw hh hm
  have ha' : modeSize mode (modeSize mode img.b.dx img.b.dy pw ph).1 (modeSize mode img.b.dx img.b.dy pw ph).2 pw ph = modeSize mode img.b.dx img.b.dy pw ph := ha
  have s1' : (img1.b.dx, img1.b.dy) = modeSize mode img.b.dx img.b.dy pw ph := s1
  rw [← s1'] at ha' hm
  obtain ⟨img2, d2, -, p2⟩ := C202_size hl ht hc filter mode hpos d1 hm.1 hm.2 (by rw [ha']; exact hm)
  have p3 := C200_pictures (lib := lib) filter mode pw ph img1 hm.1 hm.2 ha'
  exact ⟨img1, img2, d1, d2, p2.1.trans p3.1, p2.2.1.trans p3.2.1, fun x y hx hx' hy hy' =>
    (p2.2.2 x y hx hx' hy hy').trans (p3.2.2 x y hx (by rw [← p2.1]; exact hx') hy (by rw [← p2.2.1]; exact hy'))⟩

/-! A type of file that keeps what is drawn: the width and the height in unary, then the colours row by row. -/

/-- Byte `k` of the colours. -/
def plainByte (img : I) (k : Nat) : UInt8 :=
  let c := (view img).px ((k / 4 % img.b.dx.toNat : Nat)) ((k / 4 / img.b.dx.toNat : Nat))
  if k % 4 = 0 then c.r else if k % 4 = 1 then c.g else if k % 4 = 2 then c.b else c.a

def plainPut (img : I) : List UInt8 :=
  List.replicate img.b.dx.toNat 1 ++ 0 :: (List.replicate img.b.dy.toNat 1 ++ 0 :: (List.range (4 * (img.b.dx.toNat * img.b.dy.toNat))).map (plainByte img))

def ones : List UInt8 → Nat
  | 1 :: l => ones l + 1
  | _ => 0

def plainGet (bs : List UInt8) : I :=
  let w := ones bs
  let r := bs.drop (w + 1)
  let h := ones r
  let p := r.drop (h + 1)
  ⟨⟨0, 0, w, h⟩, fun x y => let k := 4 * (y.toNat * w + x.toNat); ⟨p.getD k 0, p.getD (k + 1) 0, p.getD (k + 2) 0, p.getD (k + 3) 0⟩⟩

def plainFiles : Gofer.Image.Lib I := ⟨fun bs => some (plainGet bs, "png"), fun _ img => some (plainPut img)⟩

theorem ones_replicate (n : Nat) (l : List UInt8) : ones (List.replicate n 1 ++ 0 :: l) = n := by
  induction n with
  | zero => rfl
  | succ n ih => simp [List.replicate_succ, ones, ih]

theorem plain_lossless : Lossless plainFiles "png" := by
  intro img hw hh
  refine ⟨_, _, rfl, rfl, ?_⟩
  have e : plainGet (plainPut img) = ⟨⟨0, 0, img.b.dx.toNat, img.b.dy.toNat⟩, fun x y =>
      let p := (List.range (4 * (img.b.dx.toNat * img.b.dy.toNat))).map (plainByte img)
      let k := 4 * (y.toNat * img.b.dx.toNat + x.toNat); ⟨p.getD k 0, p.getD (k + 1) 0, p.getD (k + 2) 0, p.getD (k + 3) 0⟩⟩ := by
    have d : ∀ (n : Nat) (l : List UInt8), (List.replicate n 1 ++ 0 :: l).drop (n + 1) = l := by
      intro n l
      rw [List.drop_append]
      simp
    unfold plainGet plainPut
    simp only [ones_replicate, d]
  rw [e]
  refine ⟨by simp [view, Rect.dx] at *; omega, by simp [view, Rect.dy] at *; omega, fun x y hx hx' hy hy' => ?_⟩
  obtain ⟨x, rfl⟩ := Int.eq_ofNat_of_zero_le hx
  obtain ⟨y, rfl⟩ := Int.eq_ofNat_of_zero_le hy
  have hx2 : x < img.b.dx.toNat := by simp [view, Rect.dx] at hx'; simp only [Rect.dx]; omega
  have hy2 : y < img.b.dy.toNat := by simp [view, Rect.dy] at hy'; simp only [Rect.dy]; omega
  generalize hW : img.b.dx.toNat = W at *
  generalize hH : img.b.dy.toNat = H at *
  have hlt : y * W + x < W * H := by
    calc y * W + x < y * W + W := by omega
      _ = (y + 1) * W := by ring
      _ ≤ H * W := Nat.mul_le_mul_right _ (by omega)
      _ = W * H := Nat.mul_comm _ _
  have g : ∀ c, c < 4 → ((List.range (4 * (W * H))).map (plainByte img)).getD (4 * (y * W + x) + c) 0 = plainByte img (4 * (y * W + x) + c) := by
    intro c hc
    rw [List.getD_eq_getElem?_getD, List.getElem?_map, List.getElem?_range (by omega)]
    rfl
  have q1 : ∀ c, c < 4 → (4 * (y * W + x) + c) / 4 % W = x := by
    intro c hc
    rw [show (4 * (y * W + x) + c) / 4 = y * W + x by omega, Nat.mul_comm, Nat.mul_add_mod, Nat.mod_eq_of_lt hx2]
  have q2 : ∀ c, c < 4 → (4 * (y * W + x) + c) / 4 / W = y := by
    intro c hc
    rw [show (4 * (y * W + x) + c) / 4 = y * W + x by omega, Nat.mul_comm, Nat.mul_add_div (by omega), Nat.div_eq_of_lt hx2, Nat.add_zero]
  have b : ∀ c, c < 4 → plainByte img (4 * (y * W + x) + c) = let q := (view img).px x y
      if c = 0 then q.r else if c = 1 then q.g else if c = 2 then q.b else q.a := by
    intro c hc
    unfold plainByte
    rw [hW, q1 c hc, q2 c hc, show (4 * (y * W + x) + c) % 4 = c by omega]
  show (⟨_, _, _, _⟩ : Colour) = _
  simp only [view, Int.toNat_natCast, zero_add, Int.ofNat_eq_natCast]
  have g0 := g 0 (by omega)
  rw [Nat.add_zero] at g0
  have b0 := b 0 (by omega)
  rw [Nat.add_zero] at b0
  rw [g0, g 1 (by omega), g 2 (by omega), g 3 (by omega), b0, b 1 (by omega), b 2 (by omega), b 3 (by omega)]
  simp [view]

/-- The hypotheses of `C202_size` and `C202_again` are met: 4 x 2 pixels to be 2 wide. -/
example : Sized Gofer.Props.ImageTr.someLib ∧ Lossless plainFiles "png" ∧ "png" ∈ ["jpeg", "png", "gif", "bmp", "tiff", "webp"] ∧
    ((plainGet (plainPut ⟨⟨3, 4, 7, 6⟩, fun x y => ⟨UInt8.ofNat (x + y).toNat, 0, 0, 255⟩⟩)).b = ⟨0, 0, 4, 2⟩ ∧ modeSize 0 4 2 2 0 = (2, 1)) ∧
    times 0 2 0 2 (4, 2) = times 0 2 0 1 (4, 2) :=
  ⟨⟨fun _ _ _ _ _ _ => ⟨Int.sub_zero _, Int.sub_zero _⟩, fun _ _ _ _ _ _ => ⟨Int.sub_zero _, Int.sub_zero _⟩, fun _ _ => ⟨rfl, rfl⟩⟩, plain_lossless, by simp,
    by decide +kernel, by decide +kernel⟩

/-! ## C201: the fields of `Options` -/

/-- Two values of `Options` for which `Encode` gives different files. -/
def Tells (o p : Options) : Prop :=
  ∃ (files : Gofer.Image.Lib I) (lib : Lib) (filter mode width height : Int) (src : List UInt8),
    encodeOpts files lib filter mode width height o src ≠ encodeOpts files lib filter mode width height p src

/-- The claim: every field of `Options` can make a difference; here for `Quality` and `Colors`. -/
def C201_claim : Prop := (∃ (o : Options) (q : Int), Tells o { o with quality := q }) ∧ ∃ (o : Options) (c : Int), Tells o { o with colors := c }

/-- `Quality` and `Colors` are never read: with every library, file, size and mode and whatever else is asked for, the result does not depend on them. -/
theorem C201_ignored (files : Gofer.Image.Lib I) (lib : Lib) (filter mode width height : Int) (o : Options) (q c : Int) (src : List UInt8) :
    encodeOpts files lib filter mode width height { o with quality := q, colors := c } src = encodeOpts files lib filter mode width height o src := rfl

theorem C201_claim_false : ¬ C201_claim := by
  rintro ⟨⟨o, q, f, l, _, _, _, _, s, h⟩, _⟩
  exact h rfl

/-- A file for trying things out. -/
def sample : List UInt8 := [1, 1, 1, 0, 1, 1, 0] ++ (List.range 24).map UInt8.ofNat
def blurry : Lib := { Gofer.Props.ImageTr.someLib with blur := fun _ i => ⟨i.b, fun _ _ => ⟨9, 9, 9, 9⟩⟩ }
def namedFiles : Gofer.Image.Lib I := ⟨plainFiles.dec, fun t img => some (t.toUTF8.toList ++ plainPut img)⟩

/-- Every other field makes a difference. Missing, because false (`C201_ignored`): `Quality` and `Colors`. -/
theorem C201_fields_partial : Tells {} { gray := true } ∧ Tells {} { invert := true } ∧ Tells {} { format := "bmp" } ∧ Tells {} { rotate := 90 } ∧
    Tells {} { flipH := true } ∧ Tells {} { flipV := true } ∧ Tells {} { cropAnchor := [1, 1, 0, 0] } ∧ Tells {} { cropSide := [1, 1, 0, 0] } ∧
    Tells {} { blur := 1 } ∧ Tells {} { scaleUpper := [1, 1] } ∧ Tells {} { scaleLower := [1, 1] } := by
  refine ⟨?_, ?_, ?_, ?_, ?_, ?_, ?_, ?_, ?_, ?_, ?_⟩ <;> refine ⟨namedFiles, blurry, 0, 0, 0, 0, sample, ?_⟩ <;> decide +kernel

end Gofer.Props.ImageAgain
