import Verif.Proof.ResampleTr
import Verif.Proof.ImageCover
/-! The sizes of thumbnails, and what single filters do, for `Verif/Props/Resample.lean`. -/
namespace Gofer.Resample
open Gofer.Image Gofer.F64 Gofer.ImageTr
open Gofer.Spec.Picture

theorem resample_size (f : Filter) (img : I) (w h : Int) : (resample f img w h).b.dx = w ∧ (resample f img w h).b.dy = h := by
  unfold resample
  split
  · simp [nearest, Rect.dx, Rect.dy]
  split
  · rw [(resizeV_dx _ _ _).1, (resizeV_dx _ _ _).2, (resizeH_dx _ _ _).1]
    exact ⟨rfl, rfl⟩
  split
  · rename_i h1 h2
    rw [(resizeH_dx _ _ _).1, (resizeH_dx _ _ _).2]
    exact ⟨rfl, by by_contra hc; exact h1 ⟨h2, hc⟩⟩
  · rename_i h1 h2
    rw [(resizeV_dx _ _ _).1, (resizeV_dx _ _ _).2]
    exact ⟨by simpa using h2, rfl⟩

theorem resize_sized {other : Int → Filter} {L : Lib} {n : Int} (hL : L.resample n = resample (filterOf other n)) (img : I) (nw nh : Int) :
    ((ImageTr.resize L n img nw nh).b.dx, (ImageTr.resize L n img nw nh).b.dy) = resizeSize img.b.dx img.b.dy nw nh := by
  unfold ImageTr.resize
  by_cases h1 : nw < 0 ∨ nh < 0
  · rw [if_pos h1, resizeSize_eq, if_pos h1]; rfl
  by_cases h2 : nw = 0 ∧ nh = 0
  · rw [if_neg h1, if_pos h2, resizeSize_eq, if_neg h1, if_pos h2]; rfl
  by_cases h3 : img.b.dx ≤ 0 ∨ img.b.dy ≤ 0
  · rw [if_neg h1, if_neg h2, if_pos h3, resizeSize_eq, if_neg h1, if_neg h2, if_pos h3]; rfl
  rw [if_neg h1, if_neg h2, if_neg h3]
  split
  · rename_i e
    rw [(clone_size img).1, (clone_size img).2, e]
  · rw [hL, (resample_size _ _ _ _).1, (resample_size _ _ _ _).2]

theorem cropCentre_size (img : I) {a b : Int} (h1 : 1 ≤ img.b.dx) (h2 : 1 ≤ img.b.dy) (ha : 1 ≤ a) (hb : 1 ≤ b) :
    (cropCentre img a b).b.dx = min a img.b.dx ∧ (cropCentre img a b).b.dy = min b img.b.dy := by
  unfold cropCentre imagingCrop Rect.inter
  simp only
  have t : ∀ n : Int, (0 ≤ n → n.tdiv 2 = n / 2) ∧ (n < 0 → n.tdiv 2 = -((-n) / 2)) := by
    intro n
    refine ⟨fun h => Int.tdiv_eq_ediv_of_nonneg h, fun h => ?_⟩
    rw [show n = -(-n) by omega, Int.neg_tdiv, Int.tdiv_eq_ediv_of_nonneg (by omega)]
    omega
  have tx := t (img.b.dx - a)
  have ty := t (img.b.dy - b)
  generalize (img.b.dx - a).tdiv 2 = p at *
  generalize (img.b.dy - b).tdiv 2 = q at *
  simp only [Rect.dx, Rect.dy] at *
  obtain ⟨⟨x0, y0, x1, y1⟩, px⟩ := img
  simp only at *
  have px1 : max x0 (x0 + p) < min x1 (x0 + p + a) ∧ min x1 (x0 + p + a) - max x0 (x0 + p) = min a (x1 - x0) := by
    rcases lt_or_ge (x1 - x0 - a) 0 with h | h
    · have := tx.2 h; omega
    · have := tx.1 h; omega
  have py1 : max y0 (y0 + q) < min y1 (y0 + q + b) ∧ min y1 (y0 + q + b) - max y0 (y0 + q) = min b (y1 - y0) := by
    rcases lt_or_ge (y1 - y0 - b) 0 with h | h
    · have := ty.2 h; omega
    · have := ty.1 h; omega
  have e1 : (⟨max x0 (x0 + p), max y0 (y0 + q), min x1 (x0 + p + a), min y1 (y0 + q + b)⟩ : Rect).empty = false := by
    simp only [Rect.empty]
    simp
    omega
  simp only [e1]
  have m : max (max x0 (x0 + p)) x0 = max x0 (x0 + p) ∧ max (max y0 (y0 + q)) y0 = max y0 (y0 + q) ∧ min (min x1 (x0 + p + a)) x1 = min x1 (x0 + p + a) ∧
      min (min y1 (y0 + q + b)) y1 = min y1 (y0 + q + b) := by omega
  simp only [Bool.false_eq_true, if_false, m.1, m.2.1, m.2.2.1, m.2.2.2, e1]
  exact ⟨by omega, by omega⟩

theorem part_pos (a b c : Int) : 1 ≤ part a b c := by
  unfold part
  simp only
  generalize div (mul (ofInt a) (ofInt b)) (ofInt c) = x
  have h1 : (1 : ℚ) ≤ (if 1 < x then x else 1) := by split <;> linarith
  have h2 : (1 : ℚ) ≤ rnd ((if 1 < x then x else 1) + 1 / 2) := by
    have := rnd_mono (show (1 : ℚ) ≤ (if 1 < x then x else 1) + 1 / 2 by linarith)
    have e : rnd (1 : ℚ) = 1 := by decide +kernel
    rwa [e] at this
  have := (toInt_near (show (0 : ℚ) ≤ rnd ((if 1 < x then x else 1) + 1 / 2) by linarith)).2
  have h3 : (0 : ℚ) < toInt (rnd ((if 1 < x then x else 1) + 1 / 2)) := by linarith
  have : (0 : Int) < toInt (rnd ((if 1 < x then x else 1) + 1 / 2)) := by exact_mod_cast h3
  omega

theorem auto_ge {n m w h : Int} (hw : 1 ≤ w) (hw' : w ≤ 2 ^ 31) (hh : 1 ≤ h) (hh' : h ≤ 2 ^ 31) (h0 : 0 ≤ n) (hn : n ≤ 2 ^ 31) (hm : 1 ≤ m) (hm' : m ≤ 2 ^ 40)
    (hle : m * h ≤ n * w) : m ≤ autoSide (div (mul (ofInt n) (ofInt w)) (ofInt h)) := by
  have k0 : (0 : ℚ) < h := by exact_mod_cast (by omega : (0 : Int) < h)
  have hle' : (m : ℚ) * h ≤ n * w := by exact_mod_cast hle
  have l := (auto_near hw hw' hh hh' h0 hn).1
  have l2 : (m : ℚ) * (1 - 1 / 2 ^ 51) ≤ div (mul (ofInt n) (ofInt w)) (ofInt h) := by
    apply le_of_mul_le_mul_right _ k0
    refine le_trans ?_ l
    have : (0 : ℚ) ≤ 1 - 1 / 2 ^ 51 := by norm_num
    nlinarith
  rw [autoSide_eq]
  apply le_max_of_le_right
  have mq : (m : ℚ) ≤ 2 ^ 40 := by exact_mod_cast hm'
  have : (m : ℚ) ≤ div (mul (ofInt n) (ofInt w)) (ofInt h) + 1 / 2 := by linarith
  have := rnd_mono this
  rw [rnd_int (by omega) (by omega)] at this
  rw [Rat.le_floor_iff]
  exact this

/-- `imaging.Fill` gives exactly the size asked for. -/
theorem fill_exact {other : Int → Filter} {bell : ℚ → Nat → ℚ} {turn : ℚ → I → I} (n : Int) {img : I} {w h : Int} (a1 : 1 ≤ img.b.dx) (a2 : img.b.dx ≤ 2 ^ 25)
    (b1 : 1 ≤ img.b.dy) (b2 : img.b.dy ≤ 2 ^ 25) (c1 : 1 ≤ w) (c2 : w ≤ 2 ^ 25) (d1 : 1 ≤ h) (d2 : h ≤ 2 ^ 25) :
    (ImageTr.fill (lib other bell turn) n img w h).b.dx = w ∧ (ImageTr.fill (lib other bell turn) n img w h).b.dy = h := by
  unfold ImageTr.fill
  rw [if_neg (by omega), if_neg (by omega)]
  split
  · rename_i e
    rw [(clone_size img).1, (clone_size img).2]
    exact e
  have cr : ∀ a b, 1 ≤ a → 1 ≤ b → (ImageTr.resize (plain other) n (cropCentre img a b) w h).b.dx = w ∧ (ImageTr.resize (plain other) n (cropCentre img a b) w h).b.dy = h := by
    intro a b ha hb
    have := cropCentre_size img a1 b1 ha hb
    have e := resize_sized (other := other) (L := plain other) (n := n) rfl (cropCentre img a b) w h
    rw [resizeSize_eq, if_neg (by omega), if_neg (by omega), if_neg (by omega), if_neg (by omega), if_neg (by omega)] at e
    exact ⟨(Prod.mk.inj e).1, (Prod.mk.inj e).2⟩
  have rc : ∀ a b, w ≤ (resizeSize img.b.dx img.b.dy a b).1 → h ≤ (resizeSize img.b.dx img.b.dy a b).2 →
      (cropCentre (ImageTr.resize (plain other) n img a b) w h).b.dx = w ∧ (cropCentre (ImageTr.resize (plain other) n img a b) w h).b.dy = h := by
    intro a b ha hb
    have e := resize_sized (other := other) (L := plain other) (n := n) rfl img a b
    rw [← e] at ha hb
    simp only at ha hb
    have := cropCentre_size (ImageTr.resize (plain other) n img a b) (by omega) (by omega) c1 d1
    omega
  show (fillWith (ImageTr.resize (plain other) n) img w h).b.dx = w ∧ (fillWith (ImageTr.resize (plain other) n) img w h).b.dy = h
  unfold fillWith
  simp only [decide_eq_true_eq]
  have fl := frac_lt c1 c2 a1 a2 d1 d2 b1 b2
  split
  · split
    · exact cr _ _ a1 (part_pos _ _ _)
    · exact cr _ _ (part_pos _ _ _) b1
  · split
    · rename_i ht
      rw [fl] at ht
      apply rc
      · rw [resizeSize_eq, if_neg (by omega), if_neg (by omega), if_neg (by omega), if_neg (by omega), if_pos rfl]
      · rw [resizeSize_eq, if_neg (by omega), if_neg (by omega), if_neg (by omega), if_neg (by omega), if_pos rfl]
        exact auto_ge b1 (by omega) a1 (by omega) (by omega) (by omega) d1 (by omega) (by linarith)
    · rename_i ht
      rw [fl] at ht
      apply rc
      · rw [resizeSize_eq, if_neg (by omega), if_neg (by omega), if_neg (by omega), if_pos rfl]
        exact auto_ge a1 (by omega) b1 (by omega) (by omega) (by omega) c1 (by omega) (by linarith)
      · rw [resizeSize_eq, if_neg (by omega), if_neg (by omega), if_neg (by omega), if_pos rfl]

/-! ## Filters that average -/

theorem averaging_box (other : Int → Filter) : Averaging (filterOf other 1) := by
  unfold filterOf
  rw [if_neg (by decide), if_pos rfl]
  refine ⟨le_rfl, fun x => ⟨by simp only; split <;> norm_num, fun h1 h2 => ?_⟩⟩
  simp only
  rw [if_pos]
  · norm_num
  · unfold abs64
    split <;> linarith

theorem averaging_linear (other : Int → Filter) : Averaging (filterOf other 2) := by
  unfold filterOf
  rw [if_neg (by decide), if_neg (by decide), if_pos rfl]
  refine ⟨by norm_num, fun x => ⟨?_, fun h1 h2 => ?_⟩⟩
  · simp only
    split
    · exact rnd_nonneg (by linarith)
    · exact le_rfl
  · simp only
    have : abs64 x ≤ 1 / 2 := by unfold abs64; split <;> linarith
    rw [if_pos (by linarith)]
    have := rnd_mono (show (1 / 2 : ℚ) ≤ 1 - abs64 x by linarith)
    have e : rnd (1 / 2 : ℚ) = 1 / 2 := by decide +kernel
    rw [e] at this
    linarith

/-- Shrinking by a whole factor takes the pixel in the middle of each block. -/
theorem pick_whole {dst k x : Int} (hd : Fits dst) (hk : 1 ≤ k) (hs : k * dst ≤ 2 ^ 40) (h0 : 0 ≤ x) (h1 : x < dst) : pick dst (k * dst) x = k * x + k / 2 := by
  have kd : k ≤ k * dst := le_mul_of_one_le_right (by omega) hd.1
  have e1 : stepOf dst (k * dst) = k := by
    unfold stepOf div
    have s0 : 0 ≤ k * dst := by omega
    rw [ofInt_fits (by omega) hs, ofInt_fits (by omega) hd.2]
    push_cast
    have : (dst : ℚ) ≠ 0 := by exact_mod_cast (by omega : dst ≠ 0)
    rw [mul_div_cancel_right₀ _ this]
    exact ofInt_fits (by omega) (by omega)
  have hd2 := hd.2
  unfold pick mul
  rw [e1, ofInt_fits (by omega) (by omega), show ((x : ℚ) + 1 / 2) = ((2 * x + 1 : Int) : ℚ) / 2 by push_cast; ring]
  rw [rnd_half (by omega) (by omega)]
  have xk : k * x ≤ 2 ^ 40 := le_trans (Int.mul_le_mul_of_nonneg_left (by omega) (by omega)) hs
  have xk0 : 0 ≤ k * x := Int.mul_nonneg (by omega) h0
  rw [show ((2 * x + 1 : Int) : ℚ) / 2 * k = (((2 * x + 1) * k : Int) : ℚ) / 2 by push_cast; ring]
  have e2 : (2 * x + 1) * k = 2 * (k * x) + k := by ring
  rw [e2, rnd_half (by omega) (by omega)]
  have p : (0 : ℚ) ≤ ((2 * (k * x) + k : Int) : ℚ) / 2 := by
    have : (0 : ℚ) ≤ ((2 * (k * x) + k : Int) : ℚ) := by exact_mod_cast (by omega : (0 : Int) ≤ 2 * (k * x) + k)
    linarith
  obtain ⟨t1, t2⟩ := toInt_near p
  generalize toInt (((2 * (k * x) + k : Int) : ℚ) / 2) = t at *
  have t1' : (2 * t : ℚ) ≤ ((2 * (k * x) + k : Int) : ℚ) := by linarith
  have t2' : ((2 * (k * x) + k : Int) : ℚ) < 2 * (t + 1) := by linarith
  have a1 : 2 * t ≤ 2 * (k * x) + k := by exact_mod_cast t1'
  have a2 : 2 * (k * x) + k < 2 * (t + 1) := by exact_mod_cast t2'
  omega

end Gofer.Resample

namespace Gofer.Resample
open Gofer.Image Gofer.F64 Gofer.ImageTr
open Gofer.Spec.Picture

/-! ## Everything together -/

theorem sizeStep_le {other : Int → Filter} {bell : ℚ → Nat → ℚ} {turn : ℚ → I → I} (filter mode width height : Int) {img : I} (a1 : 0 ≤ img.b.dx)
    (a2 : img.b.dx ≤ 2 ^ 19) (b1 : 0 ≤ img.b.dy) (b2 : img.b.dy ≤ 2 ^ 19) :
    (sizeStep (lib other bell turn) filter mode width height img).b.dx ≤ 2 ^ 19 ∧ (sizeStep (lib other bell turn) filter mode width height img).b.dy ≤ 2 ^ 19 := by
  by_cases he : img.b.dx ≤ 0 ∨ img.b.dy ≤ 0
  · have := sizeStep_empty (lib other bell turn) filter mode width height img he
    omega
  unfold sizeStep
  split
  · rename_i hp
    split
    · rename_i nw nh e
      have := prase_scale (by omega) (by omega) (by omega) (by omega) hp e
      have s := resize_sized (other := other) (L := lib other bell turn) (n := selectFilter filter) rfl img nw nh
      rw [← s] at this
      simp only at this
      omega
    · rename_i nw nh e
      have := prase_thumb e
      by_cases hz : nw ≤ 0 ∨ nh ≤ 0
      · unfold ImageTr.fill
        rw [if_pos hz]
        exact ⟨by simp [noImage, Rect.dx], by simp [noImage, Rect.dy]⟩
      · have := fill_exact (other := other) (bell := bell) (turn := turn) (selectFilter filter) (img := img) (w := nw) (h := nh) (by omega) (by omega) (by omega)
          (by omega) (by omega) (by omega) (by omega) (by omega)
        omega
  · exact ⟨a2, b2⟩

theorem start_le {other : Int → Filter} {bell : ℚ → Nat → ℚ} {turn : ℚ → I → I} (filter mode width height : Int) (o : Options) (hu : o.scaleUpper.length < 2)
    (hl : o.scaleLower.length < 2) {img : I} (a1 : 0 ≤ img.b.dx) (a2 : img.b.dx ≤ 2 ^ 19) (b1 : 0 ≤ img.b.dy) (b2 : img.b.dy ≤ 2 ^ 19) :
    (start (lib other bell turn) filter mode width height o img).b.dx ≤ 2 ^ 19 ∧ (start (lib other bell turn) filter mode width height o img).b.dy ≤ 2 ^ 19 := by
  unfold start
  simp only
  rw [scaleStep_short _ _ hu, scaleStep_short _ _ hl]
  have q1 := cropStep_le o.cropAnchor img a1 b1 anchor_le
  have q2 := cropStep_le o.cropSide (cropStep cropImageByAnchor o.cropAnchor img) q1.1.1 q1.2.1 side_le'
  exact sizeStep_le filter mode width height (by omega) (by omega) (by omega) (by omega)

theorem finish_plain_size (L : Lib) (o : Options) (img : I) {k : Int} (hk : o.rotate = 90 * k) (h1 : -100000000000000 ≤ k) (h2 : k ≤ 100000000000000) (hb : o.blur ≤ 0) :
    ((finish L o img).b.dx = img.b.dx ∧ (finish L o img).b.dy = img.b.dy) ∨ ((finish L o img).b.dx = img.b.dy ∧ (finish L o img).b.dy = img.b.dx) := by
  have e := view_finish L o img hk h1 h2 hb
  have ew : (finish L o img).b.dx = (view (finish L o img)).w := rfl
  have eh : (finish L o img).b.dy = (view (finish L o img)).h := rfl
  rw [ew, eh, e]
  have w1 : ∀ (b : Bool) p, (when b Pic.topple p : Pic Colour).w = p.w ∧ (when b Pic.topple p).h = p.h := fun b p => when_size (f := Pic.topple) (fun _ => ⟨rfl, rfl⟩) b p
  have w2 : ∀ (b : Bool) p, (when b Pic.mirror p : Pic Colour).w = p.w ∧ (when b Pic.mirror p).h = p.h := fun b p => when_size (f := Pic.mirror) (fun _ => ⟨rfl, rfl⟩) b p
  have w3 : ∀ (b : Bool) f p, (when b (Pic.map f) p : Pic Colour).w = p.w ∧ (when b (Pic.map f) p).h = p.h := fun b f p => when_size (f := Pic.map f) (fun _ => ⟨rfl, rfl⟩) b p
  rw [(w1 _ _).1, (w1 _ _).2, (w2 _ _).1, (w2 _ _).2, (turns_size _ _).1, (turns_size _ _).2, (w3 _ _ _).1, (w3 _ _ _).2, (w3 _ _ _).1, (w3 _ _ _).2]
  by_cases h : (k % 4).toNat % 2 = 0
  · left; rw [if_pos h, if_pos h]; exact ⟨rfl, rfl⟩
  · right; rw [if_neg h, if_neg h]; exact ⟨rfl, rfl⟩

/-- What stays true through `Encode`. -/
theorem tr_stable {other : Int → Filter} {bell : ℚ → Nat → ℚ} {turn : ℚ → I → I} {filter : Int} {R : Pic Colour → Prop}
    (S : Stable (filterOf other (selectFilter filter)) R) (mode width height : Int) (o : Options) (hu : o.scaleUpper.length < 2) (hl : o.scaleLower.length < 2)
    (hB : 0 < o.blur → ∀ i : I, i.b.dx ≤ 2 ^ 40 → i.b.dy ≤ 2 ^ 40 → R (view i) → R (view (blur bell o.blur i))) {k : Int} (hk : o.rotate = 90 * k)
    (h1 : -100000000000000 ≤ k) (h2 : k ≤ 100000000000000) (hg : o.gray = false) (hi : o.invert = false)
    {img : I} (a1 : 0 ≤ img.b.dx) (a2 : img.b.dx ≤ 2 ^ 19) (b1 : 0 ≤ img.b.dy) (b2 : img.b.dy ≤ 2 ^ 19)
    (hr : R (view img)) : R (view (tr (lib other bell turn) filter mode width height o img)) := by
  rw [tr_eq]
  have s1 := start_stable (bell := bell) (turn := turn) S mode width height o hu hl a1 a2 b1 b2 hr
  have s2 := start_le (other := other) (bell := bell) (turn := turn) filter mode width height o hu hl a1 a2 b1 b2
  generalize start (lib other bell turn) filter mode width height o img = i at *
  have e : finish (lib other bell turn) o i = if 0 < o.blur then blur bell o.blur (finish (lib other bell turn) { o with blur := 0 } i)
      else finish (lib other bell turn) { o with blur := 0 } i := by
    unfold finish
    rfl
  have q := finish_has (lib other bell turn) { o with blur := 0 } i hk h1 h2 le_rfl hg hi
  have z := finish_plain_size (lib other bell turn) { o with blur := 0 } i hk h1 h2 le_rfl
  have r : R (view (finish (lib other bell turn) { o with blur := 0 } i)) := S.sub s1 fun c hc => (q c).1 hc
  rw [e]
  split
  · rename_i hb
    exact hB hb _ (by omega) (by omega) r
  · exact r

theorem ceil_eq (q : ℚ) : q.ceil = ⌈q⌉ := by
  apply le_antisymm
  · rw [Rat.ceil_le_iff]; exact Int.le_ceil q
  · rw [Int.ceil_le]; exact Rat.le_ceil
end Gofer.Resample
