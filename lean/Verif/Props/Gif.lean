import Verif.Model.Gif
import Verif.Proof.Gif
/-!
# Property theorems: `ResizeGIF` and what is seen (C179)
-/
namespace Gofer.Props.Gif
open Gofer.Gif Gofer.Image
open Gofer.Spec.Picture (Colour)
open Gofer.Spec.Anim

/-- Dithering picks colours of the palette. -/
def Dithers (lib : Lib) : Prop := ∀ pal p x y, pal ≠ [] → lib.dither pal p x y ∈ pal

/-- What `gif.DecodeAll` returns: at least one frame, frames in the screen with pixels out of their palettes. -/
def Valid (g : GIF) : Prop :=
  g.frames ≠ [] ∧ ∀ f ∈ g.frames, 0 ≤ f.rect.x0 ∧ f.rect.x0 < f.rect.x1 ∧ f.rect.x1 ≤ g.w ∧ 0 ≤ f.rect.y0 ∧ f.rect.y0 < f.rect.y1 ∧ f.rect.y1 ≤ g.h ∧
    f.palette ≠ [] ∧ ∀ x y, f.px x y ∈ f.palette

/-- Frame `k` of an animation changes nothing outside its rectangle. -/
def Local (out : List Frame) (k : Nat) (f : PFrame) : Prop :=
  ∀ x y, ¬ (f.rect.x0 ≤ x ∧ x < f.rect.x1 ∧ f.rect.y0 ≤ y ∧ y < f.rect.y1) → seen (out.take (k + 1)) x y = seen (out.take k) x y

/-- The claim: where no reduction is asked for, the screen keeps its size, and a frame still changes only what it covers. -/
def C179_claim : Prop :=
  ∀ (lib : Lib) (g : GIF), Dithers lib → Valid g →
    ((resizeGif lib g 0 0).w = g.w ∧ (resizeGif lib g 0 0).h = g.h) ∧
    ∀ k f, g.frames[k]? = some f → Local (resizeGif lib g 0 0).anim k f

/-- The screen shrinks to the frames: a 10 x 20 frame in the middle of a screen of 100 x 100 becomes an image of 10 x 20. -/
theorem C179_screen : ∃ g : GIF, Valid g ∧ (g.w, g.h) = (100, 100) ∧ ∀ lib, ((resizeGif lib g 0 0).w, (resizeGif lib g 0 0).h) = (10, 20) := by
  refine ⟨⟨100, 100, [⟨⟨45, 40, 55, 60⟩, [⟨1, 2, 3, 255⟩], fun _ _ => ⟨1, 2, 3, 255⟩⟩], [0], [0], 0⟩, ⟨by simp, ?_⟩, rfl, fun lib => ?_⟩
  · intro f hf
    simp only [List.mem_singleton] at hf
    subst hf
    simp
  · show (gifOut [⟨45, 40, 55, 60⟩] 0 0).1 = (10, 20)
    decide +kernel

/-- A frame whose palette has no transparent colour hides everything that was on the screen, however small it is: with every library, at every pixel
of the screen a colour of that palette is seen. -/
theorem C179_hides {lib : Lib} (hl : Dithers lib) {g : GIF} {k : Nat} {f : PFrame} (hf : g.frames[k]? = some f) (hp : f.palette ≠ [])
    (ho : ∀ c ∈ f.palette, c.a ≠ 0) (tw th : Int) {x y : Int} (hx : 0 ≤ x) (hx' : x < (gifOut (g.frames.map PFrame.rect) tw th).2.1) (hy : 0 ≤ y)
    (hy' : y < (gifOut (g.frames.map PFrame.rect) tw th).2.2) :
    seen ((resizeGif lib g tw th).anim.take (k + 1)) x y ∈ f.palette := by
  have e : (resizeGif lib g tw th).anim[k]? = some ⟨0, 0, (gifOut (g.frames.map PFrame.rect) tw th).2.1, (gifOut (g.frames.map PFrame.rect) tw th).2.2,
      lib.dither f.palette (lib.scale (gifOut (g.frames.map PFrame.rect) tw th).2.1 (gifOut (g.frames.map PFrame.rect) tw th).2.2
        (lib.blur (onCanvas (gifCanvas (g.frames.map PFrame.rect)) f)))⟩ := by
    unfold GIF.anim resizeGif
    simp [hf]
  have t : (resizeGif lib g tw th).anim.take (k + 1) = (resizeGif lib g tw th).anim.take k ++ [⟨0, 0, (gifOut (g.frames.map PFrame.rect) tw th).2.1, (gifOut (g.frames.map PFrame.rect) tw th).2.2,
      lib.dither f.palette (lib.scale (gifOut (g.frames.map PFrame.rect) tw th).2.1 (gifOut (g.frames.map PFrame.rect) tw th).2.2
        (lib.blur (onCanvas (gifCanvas (g.frames.map PFrame.rect)) f)))⟩] := by
    rw [List.take_add_one, e]
    rfl
  rw [t]
  unfold seen
  rw [List.foldl_append]
  simp only [List.foldl_cons, List.foldl_nil, Frame.over]
  have hm := hl f.palette (lib.scale (gifOut (g.frames.map PFrame.rect) tw th).2.1 (gifOut (g.frames.map PFrame.rect) tw th).2.2
        (lib.blur (onCanvas (gifCanvas (g.frames.map PFrame.rect)) f))) x y hp
  rw [if_pos ⟨by simp [Frame.covers, hx, hx', hy, hy'], ho _ hm⟩]
  exact hm

/-- A red screen of 2 x 1 and a blue pixel drawn on its left half. -/
def redBlue : GIF :=
  ⟨2, 1, [⟨⟨0, 0, 2, 1⟩, [⟨255, 0, 0, 255⟩], fun _ _ => ⟨255, 0, 0, 255⟩⟩, ⟨⟨0, 0, 1, 1⟩, [⟨0, 0, 255, 255⟩], fun _ _ => ⟨0, 0, 255, 255⟩⟩], [10, 10], [1, 1], 0⟩

theorem redBlue_valid : Valid redBlue := by
  refine ⟨by simp [redBlue], fun f hf => ?_⟩
  simp only [redBlue, List.mem_cons, List.not_mem_nil, or_false] at hf
  rcases hf with rfl | rfl <;> simp [redBlue]

/-- The hypotheses of `C179_hides` at the right pixel of `redBlue`. -/
example : (∀ c ∈ ([⟨0, 0, 255, 255⟩] : List Colour), c.a ≠ 0) ∧ (1 : Int) < (gifOut (redBlue.frames.map PFrame.rect) 0 0).2.1 ∧
    (0 : Int) < (gifOut (redBlue.frames.map PFrame.rect) 0 0).2.2 := ⟨by simp, by decide +kernel, by decide +kernel⟩

/-- The right half is red before and blue afterwards. -/
theorem C179_redBlue {lib : Lib} (hl : Dithers lib) : seen (redBlue.anim) 1 0 = ⟨255, 0, 0, 255⟩ ∧ seen ((resizeGif lib redBlue 0 0).anim) 1 0 = ⟨0, 0, 255, 255⟩ := by
  refine ⟨by decide +kernel, ?_⟩
  have := C179_hides hl (g := redBlue) (k := 1) rfl (by simp) (by simp) 0 0 (x := 1) (y := 0) (by decide) (by decide +kernel) (by decide) (by decide +kernel)
  simpa [GIF.anim, resizeGif, redBlue] using this

theorem C179_claim_false : ¬ C179_claim := by
  intro h
  obtain ⟨g, hg, hw, hs⟩ := C179_screen
  let lib : Lib := ⟨fun p => p, fun _ _ p => p, fun pal _ _ _ => pal.headD ⟨0, 0, 0, 0⟩⟩
  have hl : Dithers lib := by
    intro pal p x y hp
    cases pal with
    | nil => exact absurd rfl hp
    | cons a l => exact List.mem_cons_self
  have h1 := (h lib g hl hg).1.1
  have h2 := congrArg Prod.fst (hs lib)
  have h3 := congrArg Prod.fst hw
  simp only at h2 h3
  rw [h1, h3] at h2
  exact absurd h2 (by decide)

/-- What is kept: the number of frames, delays, disposal and number of repetitions; every frame has its palette and the pixels come from it; every frame
starts at the corner of the screen; and the screen keeps its size if no reduction is asked for and some frame covers all of it.
Missing, because it is false (`C179_screen`, `C179_hides`): that the screen keeps its size when no frame covers all of it, and that a frame hides only
what it covers. -/
theorem C179_kept_partial {lib : Lib} (hl : Dithers lib) (g : GIF) (hg : Valid g) (tw th : Int) :
    ((resizeGif lib g tw th).frames.length = g.frames.length ∧ (resizeGif lib g tw th).delay = g.delay ∧ (resizeGif lib g tw th).disposal = g.disposal ∧
      (resizeGif lib g tw th).loops = g.loops) ∧
      (∀ (k : Nat) (f : PFrame), g.frames[k]? = some f → ∃ f' : PFrame, (resizeGif lib g tw th).frames[k]? = some f' ∧ f'.palette = f.palette ∧
        (f'.rect.x0 = 0 ∧ f'.rect.y0 = 0) ∧ ∀ x y, f'.px x y ∈ f.palette) ∧
      (∀ f ∈ g.frames, f.rect = ⟨0, 0, g.w, g.h⟩ → g.w ≤ 65535 → g.h ≤ 65535 → tw ≤ 0 → th ≤ 0 →
        (resizeGif lib g tw th).w = g.w ∧ (resizeGif lib g tw th).h = g.h ∧ ∀ f' ∈ (resizeGif lib g tw th).frames, f'.rect = ⟨0, 0, g.w, g.h⟩) := by
  refine ⟨⟨by simp [resizeGif], rfl, rfl, rfl⟩, fun k f hf => ?_, fun f hf hr hw hh ht hv => ?_⟩
  · have e : (resizeGif lib g tw th).frames[k]? = some ⟨⟨0, 0, (gifOut (g.frames.map PFrame.rect) tw th).2.1, (gifOut (g.frames.map PFrame.rect) tw th).2.2⟩,
        f.palette, lib.dither f.palette (lib.scale (gifOut (g.frames.map PFrame.rect) tw th).2.1 (gifOut (g.frames.map PFrame.rect) tw th).2.2
          (lib.blur (onCanvas (gifCanvas (g.frames.map PFrame.rect)) f)))⟩ := by
      simp only [resizeGif, List.getElem?_map, hf, Option.map_some]
    refine ⟨_, e, rfl, ⟨rfl, rfl⟩, fun x y => ?_⟩
    exact hl _ _ _ _ (hg.2 f (List.mem_of_getElem? hf)).2.2.2.2.2.2.1
  · obtain ⟨hx0, hx1, hx2, hy0, hy1, hy2, -⟩ := hg.2 f hf
    rw [hr] at hx0 hx1 hx2 hy0 hy1 hy2
    simp only at hx0 hx1 hx2 hy0 hy1 hy2
    have hc : gifCanvas (g.frames.map PFrame.rect) = ⟨0, 0, g.w, g.h⟩ := by
      apply canvas_full hx1 hy1
      · intro r hr'
        obtain ⟨f', hf', rfl⟩ := List.mem_map.1 hr'
        obtain ⟨a, b, c, d, e, e', -⟩ := hg.2 f' hf'
        exact ⟨a, b, c, d, e, e'⟩
      · exact List.mem_map.2 ⟨f, hf, hr⟩
    have ho : gifOut (g.frames.map PFrame.rect) tw th = ((g.w, g.h), (g.w, g.h)) := by
      unfold gifOut
      rw [hc]
      exact gifOut_same hx1 hw hy1 hh ht hv
    unfold resizeGif
    simp only [ho]
    refine ⟨trivial, trivial, fun f' hf' => ?_⟩
    obtain ⟨f'', -, rfl⟩ := List.mem_map.1 hf'
    rfl

/-- The hypotheses are met by an ordinary animation: `redBlue`, whose first frame covers the screen. -/
example : Valid redBlue ∧ (∃ f ∈ redBlue.frames, f.rect = ⟨0, 0, redBlue.w, redBlue.h⟩) ∧ redBlue.w ≤ 65535 ∧ redBlue.h ≤ 65535 :=
  ⟨redBlue_valid, ⟨_, List.mem_cons_self, rfl⟩, by decide, by decide⟩

/-- What is drawn: with a library that leaves alone what needs no change, and where some frame covers the screen and no reduction is asked for, every frame shows its own
pixels where it was, and elsewhere a colour of its palette, the transparent one if it has it. -/
theorem C179_pixels_partial {lib : Lib} (hb : ∀ p, lib.blur p = p) (g : GIF) (hg : Valid g) {f₀ : PFrame} (h₀ : f₀ ∈ g.frames) (hr : f₀.rect = ⟨0, 0, g.w, g.h⟩)
    (hs : ∀ p, lib.scale g.w g.h p = p) (hd : ∀ pal p x y, p x y ∈ pal → lib.dither pal p x y = p x y)
    (hw : g.w ≤ 65535) (hh : g.h ≤ 65535) {tw th : Int} (htw : tw ≤ 0) (hth : th ≤ 0) {k : Nat} {f : PFrame} (hf : g.frames[k]? = some f) :
    ∃ f', (resizeGif lib g tw th).frames[k]? = some f' ∧
      (∀ x y, f.rect.x0 ≤ x ∧ x < f.rect.x1 ∧ f.rect.y0 ≤ y ∧ y < f.rect.y1 → f'.px x y = f.px x y) ∧
      ∀ x y, ¬ (f.rect.x0 ≤ x ∧ x < f.rect.x1 ∧ f.rect.y0 ≤ y ∧ y < f.rect.y1) → (⟨0, 0, 0, 0⟩ : Colour) ∈ f.palette → f'.px x y = ⟨0, 0, 0, 0⟩ := by
  obtain ⟨hx0, hx1, hx2, hy0, hy1, hy2, -⟩ := hg.2 f₀ h₀
  rw [hr] at hx0 hx1 hx2 hy0 hy1 hy2
  simp only at hx0 hx1 hx2 hy0 hy1 hy2
  have hc : gifCanvas (g.frames.map PFrame.rect) = ⟨0, 0, g.w, g.h⟩ := by
    apply canvas_full hx1 hy1
    · intro r hr'
      obtain ⟨f', hf', rfl⟩ := List.mem_map.1 hr'
      obtain ⟨a, b, c, d, e, e', -⟩ := hg.2 f' hf'
      exact ⟨a, b, c, d, e, e'⟩
    · exact List.mem_map.2 ⟨f₀, h₀, hr⟩
  have ho : gifOut (g.frames.map PFrame.rect) tw th = ((g.w, g.h), (g.w, g.h)) := by
    unfold gifOut
    rw [hc]
    exact gifOut_same hx1 hw hy1 hh htw hth
  have e : (resizeGif lib g tw th).frames[k]? = some ⟨⟨0, 0, g.w, g.h⟩, f.palette, lib.dither f.palette (onCanvas ⟨0, 0, g.w, g.h⟩ f)⟩ := by
    simp only [resizeGif, List.getElem?_map, hf, Option.map_some, ho, hc, hs, hb]
  refine ⟨_, e, fun x y hxy => ?_, fun x y hxy ht => ?_⟩
  · have e : onCanvas ⟨0, 0, g.w, g.h⟩ f x y = f.px x y := by
      unfold onCanvas
      simp only [zero_add]
      rw [if_pos hxy]
    show lib.dither f.palette (onCanvas ⟨0, 0, g.w, g.h⟩ f) x y = f.px x y
    rw [hd _ _ _ _ (by rw [e]; exact (hg.2 f (List.mem_of_getElem? hf)).2.2.2.2.2.2.2 x y), e]
  · have e : onCanvas ⟨0, 0, g.w, g.h⟩ f x y = ⟨0, 0, 0, 0⟩ := by
      unfold onCanvas
      simp only [zero_add]
      rw [if_neg hxy]
    show lib.dither f.palette (onCanvas ⟨0, 0, g.w, g.h⟩ f) x y = ⟨0, 0, 0, 0⟩
    rw [hd _ _ _ _ (by rw [e]; exact ht), e]

/-- A library that leaves alone what needs no change. -/
example : let lib : Lib := ⟨fun p => p, fun _ _ p => p, fun pal p x y => if p x y ∈ pal then p x y else pal.headD ⟨0, 0, 0, 0⟩⟩
    (∀ p, lib.blur p = p) ∧ (∀ p, lib.scale 2 1 p = p) ∧ ∀ pal p x y, p x y ∈ pal → lib.dither pal p x y = p x y :=
  ⟨fun _ => rfl, fun _ => rfl, fun _ _ _ _ h => if_pos h⟩

/-- A library that dithers. -/
example : Dithers ⟨fun p => p, fun _ _ p => p, fun pal p x y => if p x y ∈ pal then p x y else pal.headD ⟨0, 0, 0, 0⟩⟩ := by
  intro pal p x y hp
  simp only
  split
  · assumption
  · cases pal with
    | nil => exact absurd rfl hp
    | cons a l => exact List.mem_cons_self

end Gofer.Props.Gif
