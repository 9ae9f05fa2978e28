import Verif.Model.Gif
import Verif.Proof.ImageMore
/-!
# Lemmas about the canvas of `resizeGIF`
-/
namespace Gofer.Gif
open Gofer.Image Gofer.F64

theorem union_full {w h : Int} (hw : 0 < w) (hh : 0 < h) (l : List Rect)
    (hl : ∀ r ∈ l, 0 ≤ r.x0 ∧ r.x0 < r.x1 ∧ r.x1 ≤ w ∧ 0 ≤ r.y0 ∧ r.y0 < r.y1 ∧ r.y1 ≤ h) : l.foldl Rect.union ⟨0, 0, w, h⟩ = ⟨0, 0, w, h⟩ := by
  induction l with
  | nil => rfl
  | cons r l ih =>
    obtain ⟨a, b, c, d, e, f⟩ := hl r List.mem_cons_self
    have : Rect.union ⟨0, 0, w, h⟩ r = ⟨0, 0, w, h⟩ := by
      unfold Rect.union
      rw [if_neg (by simp [Rect.empty]; omega), if_neg (by simp [Rect.empty]; omega)]
      simp only [Rect.mk.injEq]
      omega
    rw [List.foldl_cons, this]
    exact ih fun r hr => hl r (List.mem_cons_of_mem _ hr)

theorem canvas_aux {w h : Int} (hw : 0 < w) (hh : 0 < h) (l : List Rect)
    (hl : ∀ r ∈ l, 0 ≤ r.x0 ∧ r.x0 < r.x1 ∧ r.x1 ≤ w ∧ 0 ≤ r.y0 ∧ r.y0 < r.y1 ∧ r.y1 ≤ h) (hm : (⟨0, 0, w, h⟩ : Rect) ∈ l) (s : Rect)
    (hs : s.empty = true ∨ (0 ≤ s.x0 ∧ s.x1 ≤ w ∧ 0 ≤ s.y0 ∧ s.y1 ≤ h)) : l.foldl Rect.union s = ⟨0, 0, w, h⟩ := by
  induction l generalizing s with
  | nil => cases hm
  | cons r l ih =>
    obtain ⟨a, b, c, d, e, f⟩ := hl r List.mem_cons_self
    have hl' := fun r hr => hl r (List.mem_cons_of_mem _ hr)
    rw [List.foldl_cons]
    have re : r.empty = false := by simp [Rect.empty]; omega
    rcases List.mem_cons.1 hm with h1 | h1
    · have : Rect.union s r = ⟨0, 0, w, h⟩ := by
        unfold Rect.union
        rcases hs with hs | hs
        · rw [if_pos hs, h1]
        · split
          · rw [h1]
          · rw [if_neg (by simp [re]), ← h1]
            rename_i hne
            simp only [Rect.empty, Bool.or_eq_true, decide_eq_true_eq, not_or] at hne
            simp only [Rect.mk.injEq]
            omega
      rw [this]
      exact union_full hw hh l hl'
    · apply ih hl' h1
      right
      unfold Rect.union
      split
      · exact ⟨a, c, d, f⟩
      · rename_i hne
        rw [if_neg (by simp [re])]
        rcases hs with hs | hs
        · exact absurd hs hne
        · simp only
          omega

theorem canvas_full {w h : Int} (hw : 0 < w) (hh : 0 < h) {l : List Rect}
    (hl : ∀ r ∈ l, 0 ≤ r.x0 ∧ r.x0 < r.x1 ∧ r.x1 ≤ w ∧ 0 ≤ r.y0 ∧ r.y0 < r.y1 ∧ r.y1 ≤ h) (hm : (⟨0, 0, w, h⟩ : Rect) ∈ l) :
    gifCanvas l = ⟨0, 0, w, h⟩ :=
  canvas_aux hw hh l hl hm _ (Or.inl (by decide))

theorem whole {c : Int} (h0 : 0 < c) (h1 : c ≤ 65535) : toInt (mul (ofInt c) 1) = c := by
  have e : mul (ofInt c) 1 = c := by
    unfold mul
    rw [ofInt_exact (by omega) (by omega), mul_one]
    exact ofInt_exact (by omega) (by omega)
  rw [e, toInt_int]

theorem gifOut_same {w h tw th : Int} (hw : 0 < w) (hw' : w ≤ 65535) (hh : 0 < h) (hh' : h ≤ 65535) (ht : tw ≤ 0) (hv : th ≤ 0) :
    (let (nw, nh) := gifSize (⟨0, 0, w, h⟩ : Rect).dx (⟨0, 0, w, h⟩ : Rect).dy tw th
     ((nw, nh), resizeSize (⟨0, 0, w, h⟩ : Rect).dx (⟨0, 0, w, h⟩ : Rect).dy nw nh)) = ((w, h), (w, h)) := by
  have e : gifSize (⟨0, 0, w, h⟩ : Rect).dx (⟨0, 0, w, h⟩ : Rect).dy tw th = (w, h) := by
    unfold gifSize Rect.dx Rect.dy
    simp only [if_neg (by omega : ¬ 0 < tw), if_neg (by omega : ¬ 0 < th), sub_zero]
    rw [whole hw hw', whole hh hh']
  rw [e]
  simp only
  unfold Rect.dx Rect.dy
  rw [resizeSize_eq]
  simp only [sub_zero]
  rw [if_neg (by omega), if_neg (by omega), if_neg (by omega), if_neg (by omega), if_neg (by omega)]

end Gofer.Gif
