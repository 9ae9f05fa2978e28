import Verif.Proof.RaceCode
import Verif.Model.RaceAwait
/-! # Races of `Await` and `FastAwait`: helpers -/
namespace Gofer.Race
open Code

/-- Every code has a run. -/
theorem exists_run {M X : Type} (c : Code M X) : ∃ l, c.Runs l := by
  induction c with
  | skip => exact ⟨_, .skip⟩
  | rd x => exact ⟨_, .rd x⟩
  | wr x => exact ⟨_, .wr x⟩
  | aload x => exact ⟨_, .aload x⟩
  | armw x => exact ⟨_, .armw x⟩
  | chan x => exact ⟨_, .chan x⟩
  | seq a b ha hb => obtain ⟨l, h⟩ := ha; obtain ⟨l', h'⟩ := hb; exact ⟨_, .seq h h'⟩
  | alt a b ha hb => obtain ⟨l, h⟩ := ha; exact ⟨_, .altL h⟩
  | star a ha => exact ⟨_, .starNil⟩
  | locked m w c hc =>
    obtain ⟨l, h⟩ := hc
    cases w
    · exact ⟨_, .lockedR h (List.prefix_refl _)⟩
    · exact ⟨_, .lockedW h (List.prefix_refl _)⟩

theorem emb_ok {M X Y : Type} [DecidableEq M] {f : X → Y} {kind : Y → Kind M} {c : Code M X} : ∀ {h}, (c.emb f).ok kind h = c.ok (fun x => kind (f x)) h := by
  induction c with
  | seq a b ha hb => intro h; simp [emb, ok, ha, hb]
  | alt a b ha hb => intro h; simp [emb, ok, ha, hb]
  | star a ha => intro h; simp [emb, ok, ha]
  | locked m w c hc => intro h; simp [emb, ok, hc]
  | _ => intro h; rfl

namespace FastAwaitR

/-- The beginning of a `Wait` that returns: up to the write of the first word. -/
def waitStart (k : Nat) (i : Fin 3) (w : Nat) : List (Act Unit Loc Unit) :=
  [.armw (.slot k) () (), .armw (.bf .num) () (), .aload (.bf .num) (), .rd (.bf (.hdr i)) (), .rd (.bf (.hdr i)) (), .rd (.bf (.word i w)) (), .wr (.bf (.word i w)) ()]

theorem wait_run {words : Nat → List Nat} {k w : Nat} {ws : List Nat} (h : words k = w :: ws) (c : Nat) (i : Fin 3) :
    ∃ l, (code words (.wait k c i)).Runs l ∧ waitStart k i w <+: l := by
  obtain ⟨l1, h1⟩ := exists_run (Code.emb Loc.bf (all (ws.map fun w => all [BloomR.index i, .rd (.hdr i), .rd (.word i w), .wr (.word i w)])))
  have e : (code words (.wait k c i)) = all [.armw (.slot k), opt (.chan (.ch c)), (BloomR.code (.add i (w :: ws))).emb .bf, .armw (.slot k)] := by
    simp only [code, h]
  rw [e]
  refine ⟨_, .seq (.armw _) (.seq (.altR .skip) (.seq (.seq (.armw _) (.seq (.seq (.seq (.aload _) (.seq (.rd _) (.seq (.altR .skip) .skip))) (.seq (.rd _) (.seq (.rd _)
    (.seq (.wr _) .skip)))) h1)) (.seq (.armw _) .skip))), ?_⟩
  simp [waitStart]

/-- The beginning of a `CloseAndPut` that finds no channel: up to the read of the first word. -/
def putStart (k : Nat) (i : Fin 3) (w : Nat) : List (Act Unit Loc Unit) :=
  [.aload (.slot k) (), .aload (.bf .num) (), .rd (.bf (.hdr i)) (), .rd (.bf (.hdr i)) (), .rd (.bf (.word i w)) ()]

theorem put_run {words : Nat → List Nat} {k w : Nat} {ws : List Nat} (h : words k = w :: ws) (c : Nat) (i : Fin 3) :
    ∃ l, (code words (.closeAndPut k c i)).Runs l ∧ putStart k i w <+: l := by
  obtain ⟨l1, h1⟩ := exists_run (Code.emb Loc.bf (all (ws.map fun w => all [BloomR.index i, .rd (.hdr i), .rd (.word i w),
      opt (all [.rd (.hdr (i + 2)), .rd (.word (i + 2) w)])])))
  have e : (code words (.closeAndPut k c i)) = all [.star (all [.aload (.slot k), (BloomR.code (.contains i (w :: ws))).emb .bf]),
      .alt (all [.aload (.slot k), .armw (.slot k), .chan (.ch c), .chan (.ch c)]) (all [.aload (.slot k), (BloomR.code (.contains i (w :: ws))).emb .bf])] := by
    simp only [code, h]
  rw [e]
  refine ⟨_, .seq .starNil (.seq (.altR (.seq (.aload _) (.seq (.seq (.seq (.seq (.aload _) (.seq (.rd _) (.seq (.altR .skip) .skip))) (.seq (.rd _) (.seq (.rd _)
    (.seq (.altR .skip) .skip)))) h1) .skip))) .skip), ?_⟩
  simp [putStart]

end FastAwaitR

end Gofer.Race
