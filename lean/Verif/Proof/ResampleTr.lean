import Verif.Proof.ResamplePic
/-! Resizing, thumbnails, blurring and everything `Encode` does, for `Verif/Props/Resample.lean`. -/
namespace Gofer.Resample
open Gofer.Image Gofer.F64 Gofer.ImageTr
open Gofer.Spec.Picture

theorem no_pixels {img : I} (h : img.b.dx ≤ 0 ∨ img.b.dy ≤ 0) (c : Colour) : ¬ (view img).Has c := by
  rintro ⟨x, y, x0, x1, y0, y1, -⟩
  change x < img.b.dx at x1
  change y < img.b.dy at y1
  omega

theorem noImage_has (img : I) (c : Colour) : ¬ (view (noImage img)).Has c := no_pixels (by left; simp [noImage, Rect.dx]) c

theorem crop_has {img : I} {r : Rect} {c : Colour} (h : (view (imagingCrop img r)).Has c) : (view img).Has c := by
  revert h
  unfold imagingCrop
  simp only
  split
  · intro h
    exact absurd h (no_pixels (by left; simp [Rect.dx]) c)
  · rename_i he
    rintro ⟨x, y, x0, x1, y0, y1, rfl⟩
    have hx : (r.inter img.b).x0 < (r.inter img.b).x1 ∧ (r.inter img.b).y0 < (r.inter img.b).y1 := by
      unfold Rect.empty at he
      simp at he
      exact he
    have e : img.b.x0 ≤ (r.inter img.b).x0 ∧ img.b.y0 ≤ (r.inter img.b).y0 ∧ (r.inter img.b).x1 ≤ img.b.x1 ∧ (r.inter img.b).y1 ≤ img.b.y1 := by
      unfold Rect.inter at hx ⊢
      simp only at hx ⊢
      split at hx
      · simp at hx
      · rename_i hc
        rw [if_neg hc]
        simp only
        omega
    generalize r.inter img.b = t at *
    have x1' : x < t.dx := by simpa [view, Rect.dx] using x1
    have y1' : y < t.dy := by simpa [view, Rect.dy] using y1
    simp only [Rect.dx, Rect.dy] at x1' y1'
    have := has_px (img := img) (x := t.x0 + x - img.b.x0) (y := t.y0 + y - img.b.y0) (by omega) (by simp only [Rect.dx]; omega) (by omega)
      (by simp only [Rect.dy]; omega)
    have q : (view ⟨⟨0, 0, t.dx, t.dy⟩, fun i j => img.px (t.x0 + i) (t.y0 + j)⟩).px x y = img.px (t.x0 + x) (t.y0 + y) := by
      show img.px (t.x0 + (0 + x)) (t.y0 + (0 + y)) = _
      rw [zero_add, zero_add]
    rw [q]
    rwa [show img.b.x0 + (t.x0 + x - img.b.x0) = t.x0 + x by omega, show img.b.y0 + (t.y0 + y - img.b.y0) = t.y0 + y by omega] at this

theorem cropStep_has {l : List Int} {img : I} {c : Colour} {f : I → Int → Int → Int → Int → I}
    (hf : ∀ i a b c d x, (view (f i a b c d)).Has x → (view i).Has x) (h : (view (cropStep f l img)).Has c) : (view img).Has c := by
  revert h
  unfold cropStep
  split
  · exact hf _ _ _ _ _ _
  · exact id

theorem anchor_has (i : I) (a b c d : Int) (x : Colour) (h : (view (cropImageByAnchor i a b c d)).Has x) : (view i).Has x := by
  revert h
  unfold cropImageByAnchor
  split <;> exact crop_has

theorem side_has (i : I) (a b c d : Int) (x : Colour) (h : (view (cropImageBySide i a b c d)).Has x) : (view i).Has x := by
  revert h
  unfold cropImageBySide
  exact crop_has

/-! ## Sizes that are asked for -/

theorem resizeSize_fits {w h nw nh : Int} (hw : 1 ≤ w) (hw' : w ≤ 2 ^ 19) (hh : 1 ≤ h) (hh' : h ≤ 2 ^ 19) (h1 : nw ≤ 2 ^ 19) (h2 : nh ≤ 2 ^ 19) :
    (resizeSize w h nw nh).1 ≤ 2 ^ 40 ∧ (resizeSize w h nw nh).2 ≤ 2 ^ 40 := by
  have auto : ∀ {n a b : Int}, 1 ≤ n → n ≤ 2 ^ 19 → 1 ≤ a → a ≤ 2 ^ 19 → 1 ≤ b → b ≤ 2 ^ 19 → autoSide (div (mul (ofInt n) (ofInt a)) (ofInt b)) ≤ 2 ^ 40 := by
    intro n a b n1 n2 a1 a2 b1 b2
    refine auto_le a1 (by omega) b1 (by omega) (by omega) (by omega) (by norm_num) le_rfl ?_
    have : n * a ≤ 2 ^ 19 * 2 ^ 19 := Int.mul_le_mul n2 a2 (by omega) (by norm_num)
    omega
  rw [resizeSize_eq]
  split
  · exact ⟨by norm_num, by norm_num⟩
  split
  · exact ⟨by norm_num, by norm_num⟩
  split
  · exact ⟨by norm_num, by norm_num⟩
  split
  · exact ⟨auto (by omega) h2 hw hw' hh hh', by show nh ≤ _; omega⟩
  split
  · exact ⟨by show nw ≤ _; omega, auto (by omega) h1 hh hh' hw hw'⟩
  · exact ⟨by show nw ≤ _; omega, by show nh ≤ _; omega⟩

theorem resize_stable {f : Filter} {R : Pic Colour → Prop} (S : Stable f R) {L : Lib} {n : Int} (hL : L.resample n = resample f) {img : I} {nw nh : Int}
    (h1 : img.b.dx ≤ 2 ^ 19) (h2 : img.b.dy ≤ 2 ^ 19) (h3 : (resizeSize img.b.dx img.b.dy nw nh).1 ≤ 2 ^ 40 ∧ (resizeSize img.b.dx img.b.dy nw nh).2 ≤ 2 ^ 40)
    (hr : R (view img)) : R (view (ImageTr.resize L n img nw nh)) := by
  have no : R (view (noImage img)) := S.sub hr fun c hc => absurd hc (noImage_has img c)
  unfold ImageTr.resize
  split
  · exact no
  split
  · exact no
  split
  · exact no
  split
  · rw [view_clone]; exact hr
  · rw [hL]
    have := resize_pos (w := img.b.dx) (h := img.b.dy) (nw := nw) (nh := nh) (by omega) (by omega) (by omega) (by omega) (by omega)
    exact S.res img _ _ ⟨by omega, by omega⟩ ⟨by omega, by omega⟩ ⟨this.1, h3.1⟩ ⟨this.2, h3.2⟩ h1 h2 hr

theorem cropCentre_has {img : I} {w h : Int} {c : Colour} (hc : (view (cropCentre img w h)).Has c) : (view img).Has c := by
  unfold cropCentre at hc
  exact crop_has hc

theorem cropCentre_le (img : I) (w h : Int) (h1 : 0 ≤ img.b.dx) (h2 : 0 ≤ img.b.dy) :
    (cropCentre img w h).b.dx ≤ img.b.dx ∧ (cropCentre img w h).b.dy ≤ img.b.dy := by
  unfold cropCentre
  exact ⟨(imagingCrop_le img _ h1 h2).1.2, (imagingCrop_le img _ h1 h2).2.2⟩

theorem fillWith_stable {f : Filter} {R : Pic Colour → Prop} (S : Stable f R) {L : Lib} {n : Int} (hL : L.resample n = resample f) {img : I} {w h : Int}
    (a1 : 1 ≤ img.b.dx) (a2 : img.b.dx ≤ 2 ^ 19) (b1 : 1 ≤ img.b.dy) (b2 : img.b.dy ≤ 2 ^ 19) (c1 : 1 ≤ w) (c2 : w ≤ 2 ^ 19) (d1 : 1 ≤ h) (d2 : h ≤ 2 ^ 19)
    (hr : R (view img)) : R (view (fillWith (ImageTr.resize L n) img w h)) := by
  have sq : ∀ a b : Int, (resizeSize a b w h).1 ≤ 2 ^ 40 ∧ (resizeSize a b w h).2 ≤ 2 ^ 40 := by
    intro a b
    rw [resizeSize_eq, if_neg (by omega), if_neg (by omega)]
    split
    · exact ⟨by norm_num, by norm_num⟩
    · rw [if_neg (by omega), if_neg (by omega)]
      exact ⟨by show w ≤ _; omega, by show h ≤ _; omega⟩
  have cr : ∀ a b, R (view (ImageTr.resize L n (cropCentre img a b) w h)) := by
    intro a b
    have := cropCentre_le img a b (by omega) (by omega)
    exact resize_stable S hL (by omega) (by omega) (sq _ _) (S.sub hr fun c hc => cropCentre_has hc)
  have rc : ∀ a b, a ≤ 2 ^ 19 → b ≤ 2 ^ 19 → R (view (cropCentre (ImageTr.resize L n img a b) w h)) := by
    intro a b ha hb
    exact S.sub (resize_stable S hL (by omega) (by omega) (resizeSize_fits a1 a2 b1 b2 ha hb) hr) fun c hc => cropCentre_has hc
  unfold fillWith
  simp only
  split
  · split
    · exact cr _ _
    · exact cr _ _
  · split
    · exact rc _ _ c2 (by norm_num)
    · exact rc _ _ (by norm_num) d2

/-- The library on pictures of up to 2^19 pixels in a side. -/
theorem fill_stable {other : Int → Filter} {bell : ℚ → Nat → ℚ} {turn : ℚ → I → I} {n : Int} {R : Pic Colour → Prop} (S : Stable (filterOf other n) R)
    {img : I} {w h : Int} (a2 : img.b.dx ≤ 2 ^ 19) (b2 : img.b.dy ≤ 2 ^ 19) (c2 : w ≤ 2 ^ 19) (d2 : h ≤ 2 ^ 19)
    (hr : R (view img)) : R (view (ImageTr.fill (lib other bell turn) n img w h)) := by
  have no : R (view (noImage img)) := S.sub hr fun c hc => absurd hc (noImage_has img c)
  unfold ImageTr.fill
  split
  · exact no
  split
  · exact no
  split
  · rw [view_clone]; exact hr
  · exact fillWith_stable S (L := plain other) rfl (by omega) a2 (by omega) b2 (by omega) c2 (by omega) d2 hr

theorem thubnail_le {w h a b : Int} : (getSideByThubnail w h a b).1 ≤ max w h ∧ (getSideByThubnail w h a b).2 ≤ max w h := by
  unfold getSideByThubnail
  simp only
  split <;> split <;> split <;> split <;> omega

/-- A thumbnail is asked for by the modes 1 and 5 only. -/
theorem prase_thumb {mode w h pw ph nw nh : Int} (e : praseMode mode w h pw ph = (nw, nh, .thumbnail)) : nw ≤ max w h ∧ nh ≤ max w h := by
  unfold praseMode at e
  simp only at e
  split at e
  · simp at e
  split at e
  · simp at e
  split at e
  · simp only [Prod.mk.injEq] at e
    rw [← e.1, ← e.2.1]
    exact thubnail_le
  split at e
  · simp at e
  split at e
  · simp at e
  split at e
  · simp at e
  split at e
  · simp only [Prod.mk.injEq] at e
    rw [← e.1, ← e.2.1]
    exact thubnail_le
  · simp at e

theorem prase_scale {mode w h pw ph nw nh : Int} (hw : 1 ≤ w) (hw' : w ≤ 2 ^ 31) (hh : 1 ≤ h) (hh' : h ≤ 2 ^ 31) (hp : 0 < pw ∨ 0 < ph)
    (e : praseMode mode w h pw ph = (nw, nh, .scale)) : (resizeSize w h nw nh).1 ≤ w ∧ (resizeSize w h nw nh).2 ≤ h := by
  by_cases hm : mode ≠ 1 ∧ mode ≠ 5
  · have := mode_le hw hw' hh hh' pw ph hm
    unfold modeSize at this
    rw [if_pos hp, e] at this
    exact this
  · have e' := e
    unfold praseMode at e'
    simp only at e'
    split at e'
    · simp only [Prod.mk.injEq] at e'
      rw [← e'.1, ← e'.2.1]
      exact resize_le hw hw' hh hh' le_rfl le_rfl
    · rename_i hx
      exfalso
      have : mode = 1 ∨ mode = 5 := by omega
      rcases this with rfl | rfl
      · simp at e'
      · simp at e'

theorem sizeStep_stable {other : Int → Filter} {bell : ℚ → Nat → ℚ} {turn : ℚ → I → I} {filter : Int} {R : Pic Colour → Prop}
    (S : Stable (filterOf other (selectFilter filter)) R) (mode width height : Int) {img : I} (a2 : img.b.dx ≤ 2 ^ 19) (b2 : img.b.dy ≤ 2 ^ 19)
    (hr : R (view img)) : R (view (sizeStep (lib other bell turn) filter mode width height img)) := by
  unfold sizeStep
  split
  · rename_i hp
    by_cases he : img.b.dx ≤ 0 ∨ img.b.dy ≤ 0
    · refine S.sub hr fun c hc => absurd hc (no_pixels ?_ c)
      have := sizeStep_empty (lib other bell turn) filter mode width height img he
      unfold sizeStep at this
      rw [if_pos hp] at this
      omega
    · split
      · rename_i nw nh e
        have := prase_scale (by omega) (by omega) (by omega) (by omega) hp e
        exact resize_stable S rfl (by omega) (by omega) (by omega) hr
      · rename_i nw nh e
        have := prase_thumb e
        exact fill_stable S a2 b2 (by omega) (by omega) hr
  · exact hr

theorem start_stable {other : Int → Filter} {bell : ℚ → Nat → ℚ} {turn : ℚ → I → I} {filter : Int} {R : Pic Colour → Prop}
    (S : Stable (filterOf other (selectFilter filter)) R) (mode width height : Int) (o : Options) (hu : o.scaleUpper.length < 2) (hl : o.scaleLower.length < 2)
    {img : I} (a1 : 0 ≤ img.b.dx) (a2 : img.b.dx ≤ 2 ^ 19) (b1 : 0 ≤ img.b.dy) (b2 : img.b.dy ≤ 2 ^ 19)
    (hr : R (view img)) : R (view (start (lib other bell turn) filter mode width height o img)) := by
  unfold start
  simp only
  rw [scaleStep_short _ _ hu, scaleStep_short _ _ hl]
  have q1 := cropStep_le o.cropAnchor img a1 b1 anchor_le
  have q2 := cropStep_le o.cropSide (cropStep cropImageByAnchor o.cropAnchor img) q1.1.1 q1.2.1 side_le'
  exact sizeStep_stable S mode width height (by omega) (by omega)
    (S.sub hr fun c hc => cropStep_has anchor_has (cropStep_has side_has hc))

/-! ## Turning and mirroring -/

theorem mirror_has (p : Pic Colour) (c : Colour) : p.mirror.Has c ↔ p.Has c := by
  constructor <;> rintro ⟨x, y, x0, x1, y0, y1, e⟩
  · exact ⟨p.w - 1 - x, y, by simp only [Pic.mirror] at x1; omega, by omega, y0, y1, e⟩
  · refine ⟨p.w - 1 - x, y, by omega, by simp only [Pic.mirror]; omega, y0, y1, ?_⟩
    simp only [Pic.mirror]
    rw [show p.w - 1 - (p.w - 1 - x) = x by omega]
    exact e

theorem topple_has (p : Pic Colour) (c : Colour) : p.topple.Has c ↔ p.Has c := by
  constructor <;> rintro ⟨x, y, x0, x1, y0, y1, e⟩
  · exact ⟨x, p.h - 1 - y, x0, x1, by simp only [Pic.topple] at y1; omega, by omega, e⟩
  · refine ⟨x, p.h - 1 - y, x0, x1, by omega, by simp only [Pic.topple]; omega, ?_⟩
    simp only [Pic.topple]
    rw [show p.h - 1 - (p.h - 1 - y) = y by omega]
    exact e

theorem turn_has (p : Pic Colour) (c : Colour) : p.turn.Has c ↔ p.Has c := by
  constructor <;> rintro ⟨x, y, x0, x1, y0, y1, e⟩
  · exact ⟨p.w - 1 - y, x, by simp only [Pic.turn] at y1; omega, by omega, x0, by simpa only [Pic.turn] using x1, e⟩
  · refine ⟨y, p.w - 1 - x, y0, by simpa only [Pic.turn] using y1, by omega, by simp only [Pic.turn]; omega, ?_⟩
    simp only [Pic.turn]
    rw [show p.w - 1 - (p.w - 1 - x) = x by omega]
    exact e

theorem turns_has (n : Nat) (p : Pic Colour) (c : Colour) : (Pic.turns n p).Has c ↔ p.Has c := by
  induction n with
  | zero => rfl
  | succ n ih => rw [Pic.turns, turn_has, ih]

theorem finish_has (L : Lib) (o : Options) (img : I) {k : Int} (hk : o.rotate = 90 * k) (h1 : -100000000000000 ≤ k) (h2 : k ≤ 100000000000000)
    (hb : o.blur ≤ 0) (hg : o.gray = false) (hi : o.invert = false) (c : Colour) : (view (finish L o img)).Has c ↔ (view img).Has c := by
  rw [view_finish L o img hk h1 h2 hb, hg, hi]
  have w : ∀ (b : Bool) (f : Pic Colour → Pic Colour) (_ : ∀ p, (f p).Has c ↔ p.Has c) (p : Pic Colour), (when b f p).Has c ↔ p.Has c := by
    intro b f hf p
    unfold when
    cases b
    · rfl
    · exact hf p
  rw [w _ _ (fun p => topple_has p c), w _ _ (fun p => mirror_has p c), turns_has]
  rfl

/-! ## Blurring -/

/-- The bell of `gaussianBlurKernel`: nowhere negative, positive at 0. -/
def Bell (bell : ℚ → Nat → ℚ) : Prop := ∀ s, 0 < s → 0 < bell s 0 ∧ ∀ i, 0 ≤ bell s i

theorem blurWeights_mem {kernel : Nat → ℚ} {radius n x : Int} {w : Int × ℚ} (h : w ∈ blurWeights kernel radius n x) :
    0 ≤ w.1 ∧ w.1 < n ∧ x - radius ≤ w.1 ∧ w.1 ≤ x + radius ∧ w.2 = kernel (x - w.1).natAbs := by
  unfold blurWeights at h
  simp only [List.mem_map, mem_fromTo] at h
  obtain ⟨u, ⟨h1, h2⟩, rfl⟩ := h
  show 0 ≤ u ∧ u < n ∧ x - radius ≤ u ∧ u ≤ x + radius ∧ kernel (x - u).natAbs = kernel (x - u).natAbs
  refine ⟨?_, ?_, ?_, ?_, rfl⟩ <;> revert h1 h2 <;> split <;> split <;> omega

theorem blurWeights_self {kernel : Nat → ℚ} {radius n x : Int} (hr : 0 ≤ radius) (h0 : 0 ≤ x) (h1 : x < n) : (x, kernel 0) ∈ blurWeights kernel radius n x := by
  unfold blurWeights
  simp only [List.mem_map, mem_fromTo]
  refine ⟨x, ⟨by split <;> omega, by split <;> omega⟩, by simp⟩

theorem blurWeights_length {kernel : Nat → ℚ} {radius n x : Int} (hn : n ≤ 2 ^ 40) : (blurWeights kernel radius n x).length ≤ 2 ^ 40 := by
  unfold blurWeights
  rw [List.length_map, fromTo_length]
  split <;> split <;> omega

theorem sum_pos_of {l : List ℚ} (h : ∀ q ∈ l, 0 ≤ q) {q : ℚ} (hq : q ∈ l) (hp : 0 < q) : 0 < l.sum := by
  induction l with
  | nil => simp at hq
  | cons a l ih =>
    rw [List.sum_cons]
    have a0 := h a (by simp)
    have l0 : 0 ≤ l.sum := List.sum_nonneg fun q hq => h q (by simp [hq])
    rcases List.mem_cons.1 hq with rfl | hq
    · linarith
    · have := ih (fun q hq => h q (by simp [hq])) hq
      linarith

/-- What stays true of one blurred line. -/
theorem blur_line_shades {kernel : Nat → ℚ} (hk : ∀ i, 0 ≤ kernel i) {radius n x : Int} (hn : n ≤ 2 ^ 40) (line : Int → Colour)
    (k : Channel) {lo hi : Nat} (hh : hi ≤ 255) (hb : ∀ u, 0 ≤ u → u < n → (line u).a ≠ 0 → lo ≤ (line u).of k ∧ (line u).of k ≤ hi) (a : ℚ)
    (ha : ((gather line (blurWeights kernel radius n x)).out a).a ≠ 0) :
    lo ≤ ((gather line (blurWeights kernel radius n x)).out a).of k ∧ ((gather line (blurWeights kernel radius n x)).out a).of k ≤ hi := by
  refine out_channel k ?_ (blurWeights_length hn) hh ?_ a ?_
  · intro w hw
    rw [(blurWeights_mem hw).2.2.2.2]
    exact hk _
  · intro w hw
    exact hb _ (blurWeights_mem hw).1 (blurWeights_mem hw).2.1
  · intro e
    apply ha
    unfold Acc.out
    rw [if_pos e]

theorem blur_line_opacity {kernel : Nat → ℚ} (hk : ∀ i, 0 ≤ kernel i) (hp : 0 < kernel 0) {radius n x : Int} (hr : 0 ≤ radius) (h0 : 0 ≤ x) (h1 : x < n)
    (hn : n ≤ 2 ^ 40) (line : Int → Colour) {lo hi : Nat} (hh : hi ≤ 255) (hb : ∀ u, 0 ≤ u → u < n → lo ≤ (line u).a.toNat ∧ (line u).a.toNat ≤ hi) :
    lo ≤ ((gather line (blurWeights kernel radius n x)).out (div (gather line (blurWeights kernel radius n x)).a (total (blurWeights kernel radius n x)))).a.toNat ∧
      ((gather line (blurWeights kernel radius n x)).out (div (gather line (blurWeights kernel radius n x)).a (total (blurWeights kernel radius n x)))).a.toNat ≤ hi := by
  have nn : ∀ w ∈ blurWeights kernel radius n x, 0 ≤ w.2 := by
    intro w hw
    rw [(blurWeights_mem hw).2.2.2.2]
    exact hk _
  refine out_alpha_blur nn (blurWeights_length hn) ?_ hh fun w hw => hb _ (blurWeights_mem hw).1 (blurWeights_mem hw).2.1
  refine sum_pos_of (q := kernel 0) ?_ ?_ hp
  · intro q hq
    obtain ⟨w, hw, rfl⟩ := List.mem_map.1 hq
    exact nn w hw
  · exact List.mem_map.2 ⟨_, blurWeights_self hr h0 h1, rfl⟩

theorem blurH_px (kernel : Nat → ℚ) (radius : Int) (img : I) (x y : Int) : (view (blurH kernel radius img)).px x y =
    (gather (fun u => img.px (img.b.x0 + u) (img.b.y0 + y)) (blurWeights kernel radius img.b.dx x)).out
      (div (gather (fun u => img.px (img.b.x0 + u) (img.b.y0 + y)) (blurWeights kernel radius img.b.dx x)).a (total (blurWeights kernel radius img.b.dx x))) := by
  show (blurH kernel radius img).px (0 + x) (0 + y) = _
  rw [zero_add, zero_add]
  rfl
theorem blurV_px (kernel : Nat → ℚ) (radius : Int) (img : I) (x y : Int) : (view (blurV kernel radius img)).px x y =
    (gather (fun u => img.px (img.b.x0 + x) (img.b.y0 + u)) (blurWeights kernel radius img.b.dy y)).out
      (div (gather (fun u => img.px (img.b.x0 + x) (img.b.y0 + u)) (blurWeights kernel radius img.b.dy y)).a (total (blurWeights kernel radius img.b.dy y))) := by
  show (blurV kernel radius img).px (0 + x) (0 + y) = _
  rw [zero_add, zero_add]
  rfl

theorem blurH_size (kernel : Nat → ℚ) (radius : Int) (img : I) : (blurH kernel radius img).b.dx = img.b.dx ∧ (blurH kernel radius img).b.dy = img.b.dy := by
  simp [blurH, Rect.dx, Rect.dy]
theorem blurV_size (kernel : Nat → ℚ) (radius : Int) (img : I) : (blurV kernel radius img).b.dx = img.b.dx ∧ (blurV kernel radius img).b.dy = img.b.dy := by
  simp [blurV, Rect.dx, Rect.dy]

theorem blur_size (bell : ℚ → Nat → ℚ) (s : ℚ) (img : I) : (blur bell s img).b.dx = img.b.dx ∧ (blur bell s img).b.dy = img.b.dy := by
  unfold blur
  simp only
  rw [(blurV_size _ _ _).1, (blurV_size _ _ _).2, (blurH_size _ _ _).1, (blurH_size _ _ _).2]
  exact ⟨rfl, rfl⟩

theorem radius_nonneg {s : ℚ} (h : 0 < s) : 0 ≤ (mul s 3).ceil := by
  have : (0 : ℚ) ≤ mul s 3 := rnd_nonneg (by linarith)
  have : (-1 : ℚ) < mul s 3 := by linarith
  have h2 : (-1 : Int) < (mul s 3).ceil := by rw [Rat.lt_ceil_iff]; push_cast; exact this
  omega

theorem blur_shades {bell : ℚ → Nat → ℚ} (hB : Bell bell) {s : ℚ} (hs : 0 < s) {img : I} (h1 : img.b.dx ≤ 2 ^ 40) (h2 : img.b.dy ≤ 2 ^ 40) {k : Channel} {lo hi : Nat}
    (hr : (view img).Shades k lo hi) : (view (blur bell s img)).Shades k lo hi := by
  have hk := (hB s hs).2
  have H : (view (blurH (bell s) (mul s 3).ceil img)).Shades k lo hi := by
    rw [shades_min] at hr ⊢
    rintro c ⟨x, y, x0, x1, y0, y1, rfl⟩ ha
    have x1' : x < img.b.dx := x1.trans_eq (blurH_size _ _ img).1
    have y1' : y < img.b.dy := y1.trans_eq (blurH_size _ _ img).2
    rw [blurH_px] at ha ⊢
    exact blur_line_shades hk h1 _ k (by omega) (fun u u0 u1 hu => hr _ (has_px u0 u1 y0 y1') hu) _ ha
  unfold blur
  simp only
  have e := blurH_size (bell s) (mul s 3).ceil img
  generalize blurH (bell s) (mul s 3).ceil img = img' at *
  rw [shades_min] at H ⊢
  rintro c ⟨x, y, x0, x1, y0, y1, rfl⟩ ha
  have x1' : x < img'.b.dx := x1.trans_eq (blurV_size _ _ img').1
  have y1' : y < img'.b.dy := y1.trans_eq (blurV_size _ _ img').2
  rw [blurV_px] at ha ⊢
  exact blur_line_shades hk (by omega) _ k (by omega) (fun u u0 u1 hu => H _ (has_px x0 x1' u0 u1) hu) _ ha

theorem blur_opacity {bell : ℚ → Nat → ℚ} (hB : Bell bell) {s : ℚ} (hs : 0 < s) {img : I} (h1 : img.b.dx ≤ 2 ^ 40) (h2 : img.b.dy ≤ 2 ^ 40) {lo hi : Nat}
    (hr : (view img).Opacity lo hi) : (view (blur bell s img)).Opacity lo hi := by
  obtain ⟨hp, hk⟩ := hB s hs
  have rn := radius_nonneg hs
  have H : (view (blurH (bell s) (mul s 3).ceil img)).Opacity lo hi := by
    rw [opacity_min] at hr ⊢
    rintro c ⟨x, y, x0, x1, y0, y1, rfl⟩
    have x1' : x < img.b.dx := x1.trans_eq (blurH_size _ _ img).1
    have y1' : y < img.b.dy := y1.trans_eq (blurH_size _ _ img).2
    rw [blurH_px]
    exact blur_line_opacity hk hp rn x0 x1' h1 _ (by omega) fun u u0 u1 => hr _ (has_px u0 u1 y0 y1')
  unfold blur
  simp only
  have e := blurH_size (bell s) (mul s 3).ceil img
  generalize blurH (bell s) (mul s 3).ceil img = img' at *
  rw [opacity_min] at H ⊢
  rintro c ⟨x, y, x0, x1, y0, y1, rfl⟩
  have x1' : x < img'.b.dx := x1.trans_eq (blurV_size _ _ img').1
  have y1' : y < img'.b.dy := y1.trans_eq (blurV_size _ _ img').2
  rw [blurV_px]
  exact blur_line_opacity hk hp rn y0 y1' (by omega) _ (by omega) fun u u0 u1 => H _ (has_px x0 x1' u0 u1)

/-- The blurred picture at a pixel depends on the pixels around it only. -/
theorem gather_congr {l l' : Int → Colour} {ws : List (Int × ℚ)} (h : ∀ w ∈ ws, l w.1 = l' w.1) : gather l ws = gather l' ws := by
  unfold gather
  generalize ({} : Acc) = s
  induction ws generalizing s with
  | nil => rfl
  | cons w ws ih =>
    rw [List.foldl_cons, List.foldl_cons, h w (by simp)]
    exact ih (fun w hw => h w (by simp [hw])) _

theorem blur_local {bell : ℚ → Nat → ℚ} {s : ℚ} {a b : I} (h1 : a.b.dx = b.b.dx) (h2 : a.b.dy = b.b.dy) {x y : Int}
    (heq : ∀ u v, 0 ≤ u → u < a.b.dx → 0 ≤ v → v < a.b.dy → |u - x| ≤ (mul s 3).ceil → |v - y| ≤ (mul s 3).ceil → (view a).px u v = (view b).px u v) :
    (view (blur bell s a)).px x y = (view (blur bell s b)).px x y := by
  unfold blur
  simp only
  generalize (mul s 3).ceil = r at *
  generalize bell s = kernel
  rw [blurV_px, blurV_px, (blurH_size kernel r a).2, (blurH_size kernel r b).2, ← h2]
  have : gather (fun u => (blurH kernel r a).px ((blurH kernel r a).b.x0 + x) ((blurH kernel r a).b.y0 + u)) (blurWeights kernel r a.b.dy y) =
      gather (fun u => (blurH kernel r b).px ((blurH kernel r b).b.x0 + x) ((blurH kernel r b).b.y0 + u)) (blurWeights kernel r a.b.dy y) := by
    apply gather_congr
    intro w hw
    obtain ⟨w0, w1, w2, w3, -⟩ := blurWeights_mem hw
    show (view (blurH kernel r a)).px x w.1 = (view (blurH kernel r b)).px x w.1
    rw [blurH_px, blurH_px, ← h1]
    have : gather (fun u => a.px (a.b.x0 + u) (a.b.y0 + w.1)) (blurWeights kernel r a.b.dx x) = gather (fun u => b.px (b.b.x0 + u) (b.b.y0 + w.1)) (blurWeights kernel r a.b.dx x) := by
      apply gather_congr
      intro t ht
      obtain ⟨t0, t1, t2, t3, -⟩ := blurWeights_mem ht
      exact heq t.1 w.1 t0 t1 w0 w1 (abs_le.2 ⟨by omega, by omega⟩) (abs_le.2 ⟨by omega, by omega⟩)
    rw [this]
  rw [this]

end Gofer.Resample
