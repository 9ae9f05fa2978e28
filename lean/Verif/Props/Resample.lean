import Verif.Proof.ResampleFill
import Verif.Proof.ResampleMild
/-!
# Pictures made smaller, larger or blurred (C247 to C250)

The spec is `Verif/Spec/Resample.lean`; `view img` is the picture seen (columns and rows from 0). `lib other bell turn` is the library with `other` for the filters that
need `math.Exp` or `math.Sin`, `bell` for the kernel of the blur and `turn` for turns by odd angles: the theorems hold whatever they are.
-/
namespace Gofer.Props.Resample
open Gofer.Resample Gofer.Image Gofer.F64 Gofer.ImageTr
open Gofer.Spec.Picture

/-- A grey. -/
def grey (n : UInt8) : Colour := ⟨n, n, n, 255⟩

/-- A picture of one row. -/
def line (l : List Colour) : I := ⟨⟨0, 0, l.length, 1⟩, fun x _ => l.getD x.toNat (grey 0)⟩

/-- The row of a picture. -/
def row (i : I) : List Colour := (List.range i.b.dx.toNat).map fun x => (view i).px x 0

/-- A library for the examples. -/
def some_lib : Lib := lib (fun _ => ⟨0, fun _ => 0⟩) (fun _ i => if i = 0 then 1 / 2 else if i = 1 then 1 / 4 else 0) fun _ i => i

/-! ## C247: nearest neighbour -/

/-- **C247**: with the filter NearestNeighbor (0, that of an `Image` of which no filter was set) every colour of the result is a colour of the source: whatever the mode
and the size, the crops, the flips and the quarter turns. -/
theorem C247_colours (other : Int → Filter) (bell : ℚ → Nat → ℚ) (turn : ℚ → I → I) (mode width height : Int) (o : Options) (hu : o.scaleUpper.length < 2)
    (hl : o.scaleLower.length < 2) (hb : o.blur ≤ 0) {k : Int} (hk : o.rotate = 90 * k) (h1 : -100000000000000 ≤ k) (h2 : k ≤ 100000000000000)
    (hg : o.gray = false) (hi : o.invert = false) {img : I} (a1 : 0 ≤ img.b.dx) (a2 : img.b.dx ≤ 2 ^ 19) (b1 : 0 ≤ img.b.dy) (b2 : img.b.dy ≤ 2 ^ 19) (c : Colour)
    (hc : (view (tr (lib other bell turn) 0 mode width height o img)).Has c) : (view img).Has c := by
  have S : Stable (filterOf other (selectFilter 0)) fun p => ∀ c, p.Has c → (view img).Has c :=
    stable_nearest (by show (0 : ℚ) ≤ 0; exact le_rfl) fun hp hs c hc => hp c (hs c hc)
  exact tr_stable S mode width height o hu hl (fun h => absurd h (not_lt.2 hb)) hk h1 h2 hg hi a1 a2 b1 b2 (fun c hc => hc) c hc

/-- **C247, which pixel**: pixel `(x, y)` of the result is the pixel of the source in which the centre of `(x, y)` lies when the result is laid over the source. Where the
centre lies on the border between two pixels it is one of these two. -/
theorem C247_place (other : Int → Filter) (bell : ℚ → Nat → ℚ) (turn : ℚ → I → I) {img : I} {w h : Int} (a1 : 1 ≤ img.b.dx) (a2 : img.b.dx ≤ 2 ^ 24)
    (b1 : 1 ≤ img.b.dy) (b2 : img.b.dy ≤ 2 ^ 24) (c1 : 1 ≤ w) (c2 : w ≤ 2 ^ 24) (d1 : 1 ≤ h) (d2 : h ≤ 2 ^ 24) {x y : Int} (x0 : 0 ≤ x) (x1 : x < w)
    (y0 : 0 ≤ y) (y1 : y < h) : ∃ u v, 0 ≤ u ∧ u < img.b.dx ∧ 0 ≤ v ∧ v < img.b.dy ∧
      (view (ImageTr.resize (lib other bell turn) 0 img w h)).px x y = (view img).px u v ∧
      2 * w * u ≤ (2 * x + 1) * img.b.dx ∧ (2 * x + 1) * img.b.dx ≤ 2 * w * (u + 1) ∧
      2 * h * v ≤ (2 * y + 1) * img.b.dy ∧ (2 * y + 1) * img.b.dy ≤ 2 * h * (v + 1) := by
  have sz : resizeSize img.b.dx img.b.dy w h = (w, h) := by
    rw [resizeSize_eq, if_neg (by omega), if_neg (by omega), if_neg (by omega), if_neg (by omega), if_neg (by omega)]
  have near : ∀ {dst src x : Int}, 1 ≤ dst → dst ≤ 2 ^ 24 → 1 ≤ src → src ≤ 2 ^ 24 → 0 ≤ x → x < dst →
      2 * dst * pick dst src x ≤ (2 * x + 1) * src ∧ (2 * x + 1) * src ≤ 2 * dst * (pick dst src x + 1) := by
    intro dst src x e1 e2 f1 f2 g1 g2
    have em := Int.emod_add_mul_ediv ((2 * x + 1) * src) (2 * dst)
    have m0 := Int.emod_nonneg ((2 * x + 1) * src) (show 2 * dst ≠ 0 by omega)
    have m1 := Int.emod_lt_of_pos ((2 * x + 1) * src) (show 0 < 2 * dst by omega)
    rcases pick_place ⟨e1, by omega⟩ ⟨f1, by omega⟩ e2 f2 g1 g2 with e | ⟨e0, e⟩
    · rw [e, mul_add]
      omega
    · rw [e, mul_add, mul_sub]
      omega
  unfold ImageTr.resize
  rw [if_neg (by omega), if_neg (by omega), if_neg (by omega), sz]
  split
  · rename_i e
    simp only [Prod.mk.injEq] at e
    obtain ⟨e1, e2⟩ := e
    refine ⟨x, y, x0, by omega, y0, by omega, by rw [view_clone], ?_, ?_, ?_, ?_⟩
    · rw [← e1]; nlinarith
    · rw [← e1]; nlinarith
    · rw [← e2]; nlinarith
    · rw [← e2]; nlinarith
  · have p1 := pick_spec (dst := w) (src := img.b.dx) ⟨c1, by omega⟩ ⟨a1, by omega⟩ x0 x1
    have p2 := pick_spec (dst := h) (src := img.b.dy) ⟨d1, by omega⟩ ⟨b1, by omega⟩ y0 y1
    have n1 := near c1 c2 a1 a2 x0 x1
    have n2 := near d1 d2 b1 b2 y0 y1
    refine ⟨pick w img.b.dx x, pick h img.b.dy y, p1.1, p1.2, p2.1, p2.2, ?_, n1.1, n1.2, n2.1, n2.2⟩
    show (nearest img w h).px (0 + x) (0 + y) = _
    rw [zero_add, zero_add]
    rfl

/-- **C247, whole factors**: a picture made `k` times narrower and `l` times lower consists of the middle pixels of the blocks of `k` by `l` pixels. -/
theorem C247_blocks (other : Int → Filter) (bell : ℚ → Nat → ℚ) (turn : ℚ → I → I) {img : I} {w h k l : Int} (c1 : 1 ≤ w) (d1 : 1 ≤ h) (k1 : 1 ≤ k) (l1 : 1 ≤ l)
    (ew : img.b.dx = k * w) (eh : img.b.dy = l * h) (a2 : img.b.dx ≤ 2 ^ 40) (b2 : img.b.dy ≤ 2 ^ 40) {x y : Int} (x0 : 0 ≤ x) (x1 : x < w)
    (y0 : 0 ≤ y) (y1 : y < h) :
    (view (ImageTr.resize (lib other bell turn) 0 img w h)).px x y = (view img).px (k * x + k / 2) (l * y + l / 2) := by
  have kw : w ≤ k * w := le_mul_of_one_le_left (by omega) k1
  have lh : h ≤ l * h := le_mul_of_one_le_left (by omega) l1
  have sz : resizeSize img.b.dx img.b.dy w h = (w, h) := by
    rw [resizeSize_eq, if_neg (by omega), if_neg (by omega), if_neg (by omega), if_neg (by omega), if_neg (by omega)]
  unfold ImageTr.resize
  rw [if_neg (by omega), if_neg (by omega), if_neg (by omega), sz]
  split
  · rename_i e
    simp only [Prod.mk.injEq] at e
    have k1' : k = 1 := by
      by_contra hk
      have : 2 * w ≤ k * w := Int.mul_le_mul_of_nonneg_right (by omega) (by omega)
      omega
    have l1' : l = 1 := by
      by_contra hl
      have : 2 * h ≤ l * h := Int.mul_le_mul_of_nonneg_right (by omega) (by omega)
      omega
    subst k1' l1'
    rw [view_clone]
    simp
  · have e : (view (nearest img w h)).px x y = (view img).px (pick w img.b.dx x) (pick h img.b.dy y) := by
      show (nearest img w h).px (0 + x) (0 + y) = _
      rw [zero_add, zero_add]
      rfl
    show (view (nearest img w h)).px x y = _
    rw [e, ew, eh, pick_whole ⟨c1, by omega⟩ k1 (by omega) x0 x1, pick_whole ⟨d1, by omega⟩ l1 (by omega) y0 y1]

/-- Six pixels to two: the middle ones of three, 20 and 50. -/
example : row (ImageTr.resize some_lib 0 (line [grey 10, grey 20, grey 30, grey 40, grey 50, grey 60]) 2 1) = [grey 20, grey 50] := by decide +kernel
example : row (tr some_lib 0 0 2 0 { flipH := true } (line [grey 10, grey 20, grey 30, grey 40, grey 50, grey 60])) = [grey 50, grey 20] := by decide +kernel

/-! ## C248: filters that average -/

/-- **C248, the claim**: resizing keeps the range of shades: if all visible pixels have between `lo` and `hi` of a channel, so have those of the result. -/
def C248_claim (other : Int → Filter) (bell : ℚ → Nat → ℚ) (turn : ℚ → I → I) : Prop :=
  ∀ (filter mode width height : Int) (img : I) (k : Channel) (lo hi : Nat), 0 ≤ img.b.dx → img.b.dx ≤ 2 ^ 19 → 0 ≤ img.b.dy → img.b.dy ≤ 2 ^ 19 →
    (view img).Shades k lo hi → (view (tr (lib other bell turn) filter mode width height {} img)).Shades k lo hi

/-- It fails for MitchellNetravali, also the filter that an unknown number stands for, and for CatmullRom: halos on edges. The row 100, 100, 200, 200 becomes 97, 150, 203. -/
theorem C248_claim_false (other : Int → Filter) (bell : ℚ → Nat → ℚ) (turn : ℚ → I → I) : ¬ C248_claim other bell turn := by
  intro hc
  have h := hc 4 0 3 0 (line [grey 100, grey 100, grey 200, grey 200]) .red 100 200 (by decide) (by decide) (by decide) (by decide) ?_
  · have e : (view (tr (lib other bell turn) 4 0 3 0 {} (line [grey 100, grey 100, grey 200, grey 200]))).Has (grey 97) := by
      have t : tr (lib other bell turn) 4 0 3 0 {} (line [grey 100, grey 100, grey 200, grey 200]) =
          resizeH (filterOf (fun _ => ⟨0, fun _ => 0⟩) 4) (line [grey 100, grey 100, grey 200, grey 200]) 3 := by
        have z : praseMode 0 4 1 3 0 = (3, 0, .scale) := by decide +kernel
        have y : resizeSize 4 1 3 0 = (3, 1) := by decide +kernel
        show ImageTr.sizeStep (lib other bell turn) 4 0 3 0 (line [grey 100, grey 100, grey 200, grey 200]) = _
        unfold ImageTr.sizeStep
        rw [if_pos (by decide)]
        show (match praseMode 0 4 1 3 0 with
          | (nw, nh, .scale) => ImageTr.resize (lib other bell turn) (selectFilter 4) (line [grey 100, grey 100, grey 200, grey 200]) nw nh
          | (nw, nh, .thumbnail) => ImageTr.fill (lib other bell turn) (selectFilter 4) (line [grey 100, grey 100, grey 200, grey 200]) nw nh) = _
        rw [z]
        show ImageTr.resize (lib other bell turn) 4 (line [grey 100, grey 100, grey 200, grey 200]) 3 0 = _
        unfold ImageTr.resize
        rw [if_neg (by decide), if_neg (by decide), if_neg (by decide)]
        show (if resizeSize 4 1 3 0 = (4, 1) then _ else resample (filterOf other 4) (line [grey 100, grey 100, grey 200, grey 200]) (resizeSize 4 1 3 0).1 (resizeSize 4 1 3 0).2) = _
        rw [y, if_neg (by decide)]
        rfl
      rw [t]
      exact ⟨0, 0, by decide, by decide, by decide, by decide, by decide +kernel⟩
    have := (h _ e (by decide)).1
    revert this
    decide
  · rintro c ⟨x, y, x0, x1, y0, y1, rfl⟩ -
    change x < 4 at x1
    change y < 1 at y1
    obtain rfl : y = 0 := by omega
    have : x = 0 ∨ x = 1 ∨ x = 2 ∨ x = 3 := by omega
    rcases this with rfl | rfl | rfl | rfl <;> decide

/-- Filters that average, but for rounding: nowhere negative and positive up to a distance of 1/2 (`Averaging`), or nowhere below -2⁻⁴⁷ and at least 1/4 up to a
distance of 1/2 (`Mild`: rounding makes Hermite and BSpline negative near their ends). -/
def Smooth (f : Filter) : Prop := Averaging f ∨ Mild f

/-- **C248, the part that holds**: Box, Linear, Hermite and BSpline, and any filter that is nowhere negative and positive up to a distance of 1/2 (Gaussian). Crops, flips, quarter turns and
blurring may come along, the latter with any kernel that is nowhere negative and positive in the middle. -/
theorem C248_shades_partial {other : Int → Filter} {bell : ℚ → Nat → ℚ} {turn : ℚ → I → I} {filter : Int} (hf : Smooth (filterOf other (selectFilter filter)))
    (hB : Bell bell) (mode width height : Int) (o : Options) (hu : o.scaleUpper.length < 2) (hl : o.scaleLower.length < 2)
    {n : Int} (hn : o.rotate = 90 * n) (h1 : -100000000000000 ≤ n) (h2 : n ≤ 100000000000000) (hg : o.gray = false) (hi : o.invert = false)
    {img : I} (a1 : 0 ≤ img.b.dx) (a2 : img.b.dx ≤ 2 ^ 19) (b1 : 0 ≤ img.b.dy) (b2 : img.b.dy ≤ 2 ^ 19) {k : Channel} {lo hi' : Nat}
    (hr : (view img).Shades k lo hi') : (view (tr (lib other bell turn) filter mode width height o img)).Shades k lo hi' :=
  tr_stable (hf.elim (fun h => stable_shades h k lo hi') fun h => mild_shades h k lo hi') mode width height o hu hl (fun hb i e1 e2 hr => blur_shades hB hb e1 e2 hr) hn h1 h2 hg hi a1 a2 b1 b2 hr

/-- **C248, opacity**: nor does the opacity leave its range. -/
theorem C248_opacity_partial {other : Int → Filter} {bell : ℚ → Nat → ℚ} {turn : ℚ → I → I} {filter : Int} (hf : Smooth (filterOf other (selectFilter filter)))
    (hB : Bell bell) (mode width height : Int) (o : Options) (hu : o.scaleUpper.length < 2) (hl : o.scaleLower.length < 2)
    {n : Int} (hn : o.rotate = 90 * n) (h1 : -100000000000000 ≤ n) (h2 : n ≤ 100000000000000) (hg : o.gray = false) (hi : o.invert = false)
    {img : I} (a1 : 0 ≤ img.b.dx) (a2 : img.b.dx ≤ 2 ^ 19) (b1 : 0 ≤ img.b.dy) (b2 : img.b.dy ≤ 2 ^ 19) {lo hi' : Nat}
    (hr : (view img).Opacity lo hi') : (view (tr (lib other bell turn) filter mode width height o img)).Opacity lo hi' :=
  tr_stable (hf.elim (fun h => stable_opacity h lo hi') fun h => mild_opacity h lo hi') mode width height o hu hl (fun hb i e1 e2 hr => blur_opacity hB hb e1 e2 hr) hn h1 h2 hg hi a1 a2 b1 b2 hr

/-- Shades and opacity that leave no choice. -/
theorem one_of {p : Pic Colour} {c : Colour} (hc : c.a ≠ 0) : (∀ d, p.Has d → d = c) ↔ (∀ k, p.Shades k (c.of k) (c.of k)) ∧ p.Opacity c.a.toNat c.a.toNat := by
  constructor
  · intro h
    exact ⟨fun k d hd _ => by rw [h d hd]; exact ⟨le_rfl, le_rfl⟩, fun d hd => by rw [h d hd]; exact ⟨le_rfl, le_rfl⟩⟩
  · rintro ⟨h1, h2⟩ d hd
    have ea : d.a = c.a := by
      have := h2 d hd
      exact UInt8.toNat_inj.1 (by omega)
    have hda : d.a ≠ 0 := by rw [ea]; exact hc
    have r := h1 .red d hd hda
    have g := h1 .green d hd hda
    have b := h1 .blue d hd hda
    simp only [Colour.of] at r g b
    obtain ⟨dr, dg, db, da⟩ := d
    obtain ⟨cr, cg, cb, ca⟩ := c
    simp only at *
    rw [ea, UInt8.toNat_inj.1 (show dr.toNat = cr.toNat by omega), UInt8.toNat_inj.1 (show dg.toNat = cg.toNat by omega), UInt8.toNat_inj.1 (show db.toNat = cb.toNat by omega)]

/-- **C248, one colour**: a picture all of one visible colour has exactly that colour afterwards. -/
theorem C248_one_colour_partial {other : Int → Filter} {bell : ℚ → Nat → ℚ} {turn : ℚ → I → I} {filter : Int} (hf : Smooth (filterOf other (selectFilter filter)))
    (hB : Bell bell) (mode width height : Int) (o : Options) (hu : o.scaleUpper.length < 2) (hl : o.scaleLower.length < 2)
    {n : Int} (hn : o.rotate = 90 * n) (h1 : -100000000000000 ≤ n) (h2 : n ≤ 100000000000000) (hg : o.gray = false) (hi : o.invert = false)
    {img : I} (a1 : 0 ≤ img.b.dx) (a2 : img.b.dx ≤ 2 ^ 19) (b1 : 0 ≤ img.b.dy) (b2 : img.b.dy ≤ 2 ^ 19) {c : Colour} (hc : c.a ≠ 0)
    (hr : ∀ d, (view img).Has d → d = c) : ∀ d, (view (tr (lib other bell turn) filter mode width height o img)).Has d → d = c := by
  rw [one_of hc] at hr ⊢
  exact ⟨fun k => C248_shades_partial hf hB mode width height o hu hl hn h1 h2 hg hi a1 a2 b1 b2 (hr.1 k),
    C248_opacity_partial hf hB mode width height o hu hl hn h1 h2 hg hi a1 a2 b1 b2 hr.2⟩

/-- The filters Box, Linear, Hermite and BSpline are such filters, whatever the others are. -/
theorem C248_filters (other : Int → Filter) : Smooth (filterOf other (selectFilter 1)) ∧ Smooth (filterOf other (selectFilter 2)) ∧
    Smooth (filterOf other (selectFilter 3)) ∧ Smooth (filterOf other (selectFilter 6)) :=
  ⟨.inl (averaging_box other), .inl (averaging_linear other), .inr (mild_hermite other), .inr (mild_bspline other)⟩

/-- **C248, Box, Linear, Hermite, BSpline**: in any mode and size the result keeps the ranges of shades and opacity, and a single colour. -/
theorem C248_four_partial (other : Int → Filter) (bell : ℚ → Nat → ℚ) (turn : ℚ → I → I) {filter : Int} (hf : filter = 1 ∨ filter = 2 ∨ filter = 3 ∨ filter = 6)
    (mode width height : Int) {img : I} (a1 : 0 ≤ img.b.dx) (a2 : img.b.dx ≤ 2 ^ 19) (b1 : 0 ≤ img.b.dy) (b2 : img.b.dy ≤ 2 ^ 19) :
    (∀ k lo hi, (view img).Shades k lo hi → (view (tr (lib other bell turn) filter mode width height {} img)).Shades k lo hi) ∧
    (∀ lo hi, (view img).Opacity lo hi → (view (tr (lib other bell turn) filter mode width height {} img)).Opacity lo hi) ∧
    ∀ c : Colour, c.a ≠ 0 → (∀ d, (view img).Has d → d = c) → ∀ d, (view (tr (lib other bell turn) filter mode width height {} img)).Has d → d = c := by
  have hs : Smooth (filterOf other (selectFilter filter)) := by
    have := C248_filters other
    rcases hf with rfl | rfl | rfl | rfl
    · exact this.1
    · exact this.2.1
    · exact this.2.2.1
    · exact this.2.2.2
  have one : ∀ {R : Pic Colour → Prop}, Stable (filterOf other (selectFilter filter)) R → R (view img) → R (view (tr (lib other bell turn) filter mode width height {} img)) :=
    fun S hr => tr_stable S mode width height {} (by simp) (by simp) (fun hb => absurd hb (lt_irrefl _)) (k := 0) (by simp) (by norm_num) (by norm_num) rfl rfl a1 a2 b1 b2 hr
  have sh : ∀ k lo hi, (view img).Shades k lo hi → (view (tr (lib other bell turn) filter mode width height {} img)).Shades k lo hi := fun k lo hi hr =>
    one (hs.elim (fun h => stable_shades h k lo hi) fun h => mild_shades h k lo hi) hr
  have op : ∀ lo hi, (view img).Opacity lo hi → (view (tr (lib other bell turn) filter mode width height {} img)).Opacity lo hi := fun lo hi hr =>
    one (hs.elim (fun h => stable_opacity h lo hi) fun h => mild_opacity h lo hi) hr
  refine ⟨sh, op, fun c hc hr => ?_⟩
  rw [one_of hc] at hr ⊢
  exact ⟨fun k => sh k _ _ (hr.1 k), op _ _ hr.2⟩

/-- The kernels of Hermite just below 1 and of BSpline just below 2 are negative, by rounding. -/
example : bcspline (1 - 46916911 / 2 ^ 53) 0 0 < 0 ∧ bcspline (2 - 147 / 2 ^ 33) 1 0 < 0 := by decide +kernel

/-- Colours that cannot be seen are lost, as black: the range of the shades is that of the visible pixels only. -/
example : row (ImageTr.resize some_lib 1 (line [⟨200, 10, 10, 0⟩, ⟨200, 10, 10, 0⟩, grey 7, grey 9]) 2 1) = [⟨0, 0, 0, 0⟩, grey 8] := by decide +kernel

/-- An edge: the four filters stay between 100 and 200. A pixel that cannot be seen does not darken its neighbour. -/
example : row (tr some_lib 1 0 3 0 {} (line [grey 100, grey 100, grey 200, grey 200])) = [grey 100, grey 150, grey 200] := by decide +kernel
example : row (tr some_lib 2 0 3 0 {} (line [grey 100, grey 100, grey 200, grey 200])) = [grey 100, grey 150, grey 200] := by decide +kernel
example : row (tr some_lib 3 0 3 0 {} (line [grey 100, grey 100, grey 200, grey 200])) = [grey 100, grey 150, grey 200] := by decide +kernel
example : row (tr some_lib 6 0 3 0 {} (line [grey 100, grey 100, grey 200, grey 200])) = [grey 104, grey 150, grey 196] := by decide +kernel
example : row (tr some_lib 5 0 3 0 {} (line [grey 100, grey 100, grey 200, grey 200])) = [grey 94, grey 150, grey 206] := by decide +kernel
example : row (tr some_lib 1 0 2 0 {} (line [grey 100, ⟨0, 0, 0, 0⟩, grey 200, grey 200])) = [⟨100, 100, 100, 128⟩, grey 200] := by decide +kernel

/-! ## C249: blurring -/

/-- **C249**: blurring keeps the size, the ranges of the shades and of the opacity, and pictures of one colour. -/
theorem C249_blur {bell : ℚ → Nat → ℚ} (hB : Bell bell) (other : Int → Filter) (turn : ℚ → I → I) {s : ℚ} (hs : 0 < s) {img : I} (h1 : img.b.dx ≤ 2 ^ 40)
    (h2 : img.b.dy ≤ 2 ^ 40) :
    (view ((lib other bell turn).blur s img)).w = (view img).w ∧ (view ((lib other bell turn).blur s img)).h = (view img).h ∧
    (∀ k lo hi, (view img).Shades k lo hi → (view ((lib other bell turn).blur s img)).Shades k lo hi) ∧
    (∀ lo hi, (view img).Opacity lo hi → (view ((lib other bell turn).blur s img)).Opacity lo hi) ∧
    ∀ c : Colour, c.a ≠ 0 → (∀ d, (view img).Has d → d = c) → ∀ d, (view ((lib other bell turn).blur s img)).Has d → d = c := by
  refine ⟨(blur_size bell s img).1, (blur_size bell s img).2, fun k lo hi hr => blur_shades hB hs h1 h2 hr, fun lo hi hr => blur_opacity hB hs h1 h2 hr, ?_⟩
  intro c hc hr
  rw [one_of hc] at hr ⊢
  exact ⟨fun k => blur_shades hB hs h1 h2 (hr.1 k), blur_opacity hB hs h1 h2 hr.2⟩

/-- **C249, how far**: a pixel of the blurred picture depends on no pixel farther away than `⌈3 · sigma⌉` columns or rows (`mul`: rounded to a float64). -/
theorem C249_local (bell : ℚ → Nat → ℚ) (other : Int → Filter) (turn : ℚ → I → I) {s : ℚ} {a b : I} (h1 : (view a).w = (view b).w) (h2 : (view a).h = (view b).h) {x y : Int}
    (heq : ∀ u v, 0 ≤ u → u < (view a).w → 0 ≤ v → v < (view a).h → |u - x| ≤ ⌈mul s 3⌉ → |v - y| ≤ ⌈mul s 3⌉ → (view a).px u v = (view b).px u v) :
    (view ((lib other bell turn).blur s a)).px x y = (view ((lib other bell turn).blur s b)).px x y :=
  blur_local h1 h2 fun u v u0 u1 v0 v1 d1 d2 => heq u v u0 u1 v0 v1 (by rw [← ceil_eq]; exact d1) (by rw [← ceil_eq]; exact d2)

/-- A white pixel in a black row, spread over its neighbours. -/
example : row (some_lib.blur (1 / 3) (line [grey 0, grey 0, grey 200, grey 0, grey 0])) = [grey 0, grey 50, grey 100, grey 50, grey 0] := by decide +kernel
example : Bell fun _ i => if i = 0 then 1 / 2 else if i = 1 then 1 / 4 else 0 := by
  intro s _
  refine ⟨by norm_num, fun i => ?_⟩
  show (0 : ℚ) ≤ if i = 0 then 1 / 2 else if i = 1 then 1 / 4 else 0
  split
  · norm_num
  · split <;> norm_num

/-! ## C250: sizes -/

/-- **C250**: the picture `Encode` makes has exactly the size that the rules of the mode give (C59, C60, C191, …): no step of the library adds or loses a pixel. -/
theorem C250_size (other : Int → Filter) (bell : ℚ → Nat → ℚ) (turn : ℚ → I → I) (filter mode width height : Int) {img : I} (a1 : 1 ≤ img.b.dx)
    (a2 : img.b.dx ≤ 2 ^ 25) (b1 : 1 ≤ img.b.dy) (b2 : img.b.dy ≤ 2 ^ 25) :
    ((view (tr (lib other bell turn) filter mode width height {} img)).w, (view (tr (lib other bell turn) filter mode width height {} img)).h) =
      modeSize mode img.b.dx img.b.dy width height := by
  show ((sizeStep (lib other bell turn) filter mode width height img).b.dx, (sizeStep (lib other bell turn) filter mode width height img).b.dy) = _
  unfold sizeStep modeSize
  split
  · generalize he : praseMode mode img.b.dx img.b.dy width height = p
    obtain ⟨nw, nh, t⟩ := p
    cases t
    · exact resize_sized (other := other) rfl img nw nh
    · have := prase_thumb he
      show ((ImageTr.fill (lib other bell turn) (selectFilter filter) img nw nh).b.dx, (ImageTr.fill (lib other bell turn) (selectFilter filter) img nw nh).b.dy) =
        fillSize img.b.dx img.b.dy nw nh
      unfold fillSize
      by_cases hz : nw ≤ 0 ∨ nh ≤ 0
      · rw [if_pos hz]
        unfold ImageTr.fill
        rw [if_pos hz]
        rfl
      · rw [if_neg hz, if_neg (by omega)]
        have := fill_exact (other := other) (bell := bell) (turn := turn) (selectFilter filter) (img := img) (w := nw) (h := nh) a1 a2 b1 b2 (by omega) (by omega)
          (by omega) (by omega)
        rw [this.1, this.2]
  · rfl

/-- **C250, thumbnails**: `Fill` gives exactly the size asked for. -/
theorem C250_fill (other : Int → Filter) (bell : ℚ → Nat → ℚ) (turn : ℚ → I → I) (filter : Int) {img : I} {w h : Int} (a1 : 1 ≤ img.b.dx) (a2 : img.b.dx ≤ 2 ^ 25)
    (b1 : 1 ≤ img.b.dy) (b2 : img.b.dy ≤ 2 ^ 25) (c1 : 1 ≤ w) (c2 : w ≤ 2 ^ 25) (d1 : 1 ≤ h) (d2 : h ≤ 2 ^ 25) :
    (view (ImageTr.fill (lib other bell turn) filter img w h)).w = w ∧ (view (ImageTr.fill (lib other bell turn) filter img w h)).h = h :=
  fill_exact filter a1 a2 b1 b2 c1 c2 d1 d2

/-- A thumbnail shows the middle: of five pixels the third. -/
example : row (ImageTr.fill some_lib 0 (line [grey 1, grey 2, grey 3, grey 4, grey 5]) 1 1) = [grey 3] := by decide +kernel
example : (let p := tr some_lib 0 1 3 2 {} ⟨⟨0, 0, 7, 5⟩, fun x y => grey (UInt8.ofInt (10 * y + x))⟩; (p.b.dx, p.b.dy)) = (3, 2) := by decide +kernel

end Gofer.Props.Resample
