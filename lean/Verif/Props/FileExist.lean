import Verif.Proof.FileExist

/-! # `IsFileExist`: property C210 -/
namespace Gofer.Props.FileExist
open Gofer.FileExist Gofer.Spec.FileExist Gofer.FileExistProof

/-- C210, as stated: the answer is true exactly if the path is the name of an entry of a directory. -/
def C210_claim : Prop := ∀ (root : Node) (path : Bytes), path ≠ [] → path.length < 4096 → 0 ∉ path → path.head? = some 47 →
  (∃ cs n, Path path (cs ++ [.name n])) → (isFileExist [root] [root] path = true ↔ Entry root path)

/-- C210, what the answer means: the path, of 1 to 4095 bytes without zeros, leads over at most 40 links through directories that the
caller may search to something, a file, a directory or whatever. Missing: entries in directories that may not be searched, and links that
lead nowhere or are too many. -/
theorem C210_true_partial (root cwd : List Node) (path : Bytes) : isFileExist root cwd path = true ↔
    path ≠ [] ∧ path.length < 4096 ∧ 0 ∉ path ∧ ∃ q cs x k, From root cwd path q ∧ Path path cs ∧ k ≤ 40 ∧ Leads root q cs x k := by
  have e : (∃ q cs x k, From root cwd path q ∧ Path path cs ∧ k ≤ 40 ∧ Leads root q cs x k) ↔
      ∃ x k, k ≤ 40 ∧ Leads root (start root cwd path) (comps path) x k := by
    simp only [path_iff, from_iff]
    constructor
    · rintro ⟨_, _, x, k, rfl, rfl, h⟩; exact ⟨x, k, h⟩
    · rintro ⟨x, k, h⟩; exact ⟨_, _, x, k, rfl, rfl, h⟩
  rw [e]
  unfold isFileExist
  by_cases h0 : path = []
  · simp [h0]
  rw [if_pos h0]
  unfold stat
  by_cases h1 : 0 ∈ path
  · simp [h1, isExist]
  by_cases h2 : path.length ≥ 4096
  · rw [if_neg h1, if_neg h0, if_pos h2]
    simp only [isExist, Bool.false_eq_true, false_iff]
    rintro ⟨_, h, _⟩
    omega
  rw [if_neg h1, if_neg h0, if_neg h2]
  cases hw : walk root 40 (start root cwd path) (comps path) with
  | ok x =>
    simp only [true_iff]
    obtain ⟨k, hk⟩ := (walk_iff root 40 _ _ x).1 hw
    exact ⟨h0, by omega, h1, x, k, hk⟩
  | error e =>
    simp only [walk_error root 40 _ _ e hw, Bool.false_eq_true, false_iff]
    rintro ⟨_, _, _, x, k, hk⟩
    rw [(walk_iff root 40 _ _ x).2 ⟨k, hk⟩] at hw
    simp at hw

/-- The directory "p" may not be searched and holds "k"; the link "l" leads to "n", which is not there; "d" is a directory. -/
def sample : Node := .dir true [([112], .dir false [([107], .file)]), ([108], .link [110]), ([100], .dir true []), ([102], .file)]

/-- C210 is false: a file in a directory that may not be searched. -/
theorem C210_claim_false : ¬ C210_claim := by
  intro h
  have := (h sample [47, 112, 47, 107] (by decide) (by decide) (by decide) rfl ⟨[.slash, .name [112]], [107], (path_iff _ _).2 rfl⟩).2
    ⟨[.slash, .name [112]], [107], (path_iff _ _).2 rfl, [([107], .file)], 0,
      .slash (.name (y := .dir true [([107], .file)]) (by decide) rfl (by simp) (.done _ _)), rfl⟩
  revert this
  decide +kernel

/-- C210: nor is it told by a link that leads nowhere, which is an entry like any other. -/
theorem C210_dangling : isFileExist [sample] [sample] [47, 108] = false ∧ Entry sample [47, 108] :=
  ⟨by decide +kernel, [.slash], [108], (path_iff _ _).2 rfl, _, 0, .slash (.done _ _), rfl⟩

/-- C210: the answer depends on who asks. -/
theorem C210_who_asks : isFileExist [sample] [sample] [47, 112, 47, 107] = false ∧
    isFileExist [unlocked sample] [unlocked sample] [47, 112, 47, 107] = true := by
  constructor <;> decide +kernel

-- The directory itself is told of, also with a slash behind; with a dot it is not.
example : isFileExist [sample] [sample] [47, 112] = true ∧ isFileExist [sample] [sample] [47, 112, 47] = true ∧
    isFileExist [sample] [sample] [47, 112, 47, 46] = false := by
  refine ⟨?_, ?_, ?_⟩ <;> decide +kernel

-- "/f", "/d" (a directory), "/d/../f" and, from "/d", "../f"; not "/f/", "/x" and "".
example : isFileExist [sample] [sample] [47, 102] = true ∧ isFileExist [sample] [sample] [47, 100] = true ∧
    isFileExist [sample] [sample] [47, 100, 47, 46, 46, 47, 102] = true ∧
    isFileExist [sample] [.dir true [], sample] [46, 46, 47, 102] = true ∧
    isFileExist [sample] [sample] [47, 102, 47] = false ∧ isFileExist [sample] [sample] [47, 120] = false ∧
    isFileExist [sample] [sample] [] = false := by
  refine ⟨?_, ?_, ?_, ?_, ?_, ?_, ?_⟩ <;> decide +kernel

end Gofer.Props.FileExist
