import Verif.Proof.ReadFile

/-! # C192: what `util.ReadFile` returns while others change files -/
namespace Gofer.Props.ReadFile
open Gofer.ReadFile
variable {P : Type} [DecidableEq P]

/-- The full claim: a call that returns without error returns what the file of that name contained at some moment during the call. -/
def C192_claim : Prop :=
  ∀ (fs : FS Unit) (as : List (Act Unit)) (s : St Unit) (bs : List UInt8), exec () ⟨fs, .start⟩ as = some s → s.pc = .ok bs →
    ∃ as1 as2 t, as = as1 ++ as2 ∧ exec () ⟨fs, .start⟩ as1 = some t ∧ contents t.fs () = some bs

/-- One file, which has the name. -/
def oneFile (f : File) : FS Unit := ⟨[f], fun _ => some 0⟩

/-- A file of two bytes: the first is copied, then both are overwritten, then the second is copied. -/
def torn : List (Act Unit) := [.step, .step, .copy 0, .env (.write 0 0 [3, 4]), .copy 1, .step]

theorem C192_claim_false : ¬ C192_claim := by
  intro h
  have hx : ∃ s, exec () ⟨oneFile ⟨[1, 2], true⟩, .start⟩ torn = some s ∧ s.pc = .ok [1, 4] := ⟨_, rfl, by decide +kernel⟩
  obtain ⟨s, h1, h2⟩ := hx
  obtain ⟨as1, as2, t, e, h3, h4⟩ := h _ _ s _ h1 h2
  have hall : ∀ n, n ≤ torn.length → ((exec () ⟨oneFile ⟨[1, 2], true⟩, .start⟩ (torn.take n)).bind fun t => contents t.fs ()) ≠ some [1, 4] := by
    decide +kernel
  have hn : as1 = torn.take as1.length := by rw [e]; simp
  apply hall as1.length (by rw [e]; simp)
  rw [← hn, h3]
  exact h4

/-- A program that shortens the file during the call ends the process: `ReadFile` neither returns nor panics. -/
theorem C192_killed : ∃ (as : List (Act Unit)) (s : St Unit), exec () ⟨oneFile ⟨[1, 2], true⟩, .start⟩ as = some s ∧ s.pc = .killed :=
  ⟨[.step, .step, .env (.truncate 0 0), .copy 0], _, rfl, by decide +kernel⟩

/-- A file whose size is given as 0 (devices, the files of /proc) is read as empty, whatever it contains, without error. -/
theorem C192_special (fs : FS P) (p : P) (ino : Nat) (data : List UInt8) (h1 : fs.names p = some ino) (h2 : fs.files[ino]? = some ⟨data, false⟩) :
    (exec p ⟨fs, .start⟩ [.step, .step]).map St.pc = some (.ok []) := by
  simp [exec, act, openFile, mapFile, h1, h2]

example : (exec () ⟨oneFile ⟨[1, 2], false⟩, .start⟩ [.step, .step]).map St.pc = some (.ok []) :=
  C192_special _ () 0 [1, 2] rfl rfl

/-- If the files of the system are regular and others put whole new files in place of old ones (a new file, then a rename over the old
one), the result is what the file of that name contained at some moment during the call; and the call never ends the process.
Missing towards the claim: files that are changed in place, and files whose size is given as 0. -/
theorem C192_snapshot_partial (p : P) (fs : FS P) (as : List (Act P)) (s : St P)
    (hnames : ∀ q ino, fs.names q = some ino → ino < fs.files.length) (hreg : ∀ f ∈ fs.files, f.sized = true)
    (hnew : ∀ f, Act.env (.create f) ∈ as → f.sized = true) (hwrite : ∀ ino off bs, Act.env (.write ino off bs) ∉ as)
    (htrunc : ∀ ino n, Act.env (.truncate ino n) ∉ as) (hs : exec p ⟨fs, .start⟩ as = some s) :
    s.pc ≠ .killed ∧ ∀ bs, s.pc = .ok bs → ∃ as1 as2 t, as = as1 ++ as2 ∧ exec p ⟨fs, .start⟩ as1 = some t ∧ contents t.fs p = some bs := by
  have hg : ∀ a ∈ as, replacing a := by
    intro a ha
    cases a with
    | env e =>
      cases e with
      | write i o b => exact absurd ha (hwrite i o b)
      | truncate i n => exact absurd ha (htrunc i n)
      | create f => exact hnew f ha
      | rename _ _ => trivial
      | remove _ => trivial
    | _ => trivial
  have h1 := invG ⟨hnames, hreg⟩ (fun a ha => replacing_growing (hg a ha)) hs
  have h2 := invR ⟨hnames, hreg⟩ hg hs
  refine ⟨fun hk => ?_, fun bs hb => ?_⟩
  · have := h1.2; rw [hk] at this; exact this
  · unfold InvR at h2; rw [hb] at h2; exact h2

/-- Two files; while the call copies the first, the name is given to the second. -/
example : ∃ s : St Unit, exec () ⟨⟨[⟨[1, 2], true⟩, ⟨[3, 4, 5], true⟩], fun _ => some 0⟩, .start⟩
    [.step, .step, .copy 1, .env (.rename () 1), .copy 0, .step] = some s ∧ s.pc = .ok [1, 2] ∧ contents s.fs () = some [3, 4, 5] :=
  ⟨_, rfl, by decide +kernel, by decide +kernel⟩

/-- If no file is made shorter, every byte returned stood at its place in one and the same file, which had the name during the call, at
some moment during the call; the length is the length this file had at some moment; and the call never ends the process. -/
theorem C192_bytes (p : P) (fs : FS P) (as : List (Act P)) (s : St P)
    (hnames : ∀ q ino, fs.names q = some ino → ino < fs.files.length) (hreg : ∀ f ∈ fs.files, f.sized = true)
    (hnew : ∀ f, Act.env (.create f) ∈ as → f.sized = true)
    (htrunc : ∀ ino n, Act.env (.truncate ino n) ∉ as) (hs : exec p ⟨fs, .start⟩ as = some s) :
    s.pc ≠ .killed ∧ ∀ bs, s.pc = .ok bs → ∃ ino : Nat,
      (∃ as1 as2 t, as = as1 ++ as2 ∧ exec p ⟨fs, .start⟩ as1 = some t ∧ t.fs.names p = some ino) ∧
      (∃ as1 as2 t, as = as1 ++ as2 ∧ exec p ⟨fs, .start⟩ as1 = some t ∧ ∃ f : File, t.fs.files[ino]? = some f ∧ f.data.length = bs.length) ∧
      ∀ (i : Nat) (b : UInt8), bs[i]? = some b →
        ∃ as1 as2 t, as = as1 ++ as2 ∧ exec p ⟨fs, .start⟩ as1 = some t ∧ ∃ f : File, t.fs.files[ino]? = some f ∧ f.data[i]? = some b := by
  have hg : ∀ a ∈ as, growing a := by
    intro a ha
    cases a with
    | env e =>
      cases e with
      | truncate i n => exact absurd ha (htrunc i n)
      | create f => exact hnew f ha
      | _ => trivial
    | _ => trivial
  have h1 := (invG ⟨hnames, hreg⟩ hg hs).2
  refine ⟨fun hk => ?_, fun bs hb => ?_⟩
  · rw [hk] at h1; exact h1
  · rw [hb] at h1; exact h1

example : (∀ ino n, Act.env (.truncate ino n) ∉ torn) ∧ ∃ s, exec () ⟨oneFile ⟨[1, 2], true⟩, .start⟩ torn = some s ∧ s.pc = .ok [1, 4] :=
  ⟨by intro i n h; simp [torn] at h, _, rfl, by decide +kernel⟩

/-- Left alone, a call returns the contents of the file: opened, mapped, every byte copied. -/
theorem C192_alone (p : P) (fs : FS P) (ino : Nat) (data : List UInt8) (h1 : fs.names p = some ino) (h2 : fs.files[ino]? = some ⟨data, true⟩) :
    ∃ as : List (Act P), (∀ e, Act.env e ∉ as) ∧ Act.fail ∉ as ∧ (exec p ⟨fs, .start⟩ as).map St.pc = some (.ok data) := by
  by_cases h0 : data = []
  · subst h0
    exact ⟨[.step, .step], by simp, by simp, by simp [exec, act, openFile, mapFile, h1, h2]⟩
  · refine ⟨[.step, .step] ++ ((List.range' 0 data.length).map Act.copy ++ [.step]), by simp, by simp, ?_⟩
    have hl : data.length ≠ 0 := fun h => h0 (List.length_eq_zero_iff.1 h)
    have hc := copy_all p fs ino data h2 data.length 0 (by omega)
    simp only [List.take_zero, List.map_nil, List.nil_append] at hc
    have ho : exec p ⟨fs, .start⟩ [.step, .step] = some ⟨fs, .mapped ino (List.replicate data.length none)⟩ := by
      simp [exec, act, openFile, mapFile, h1, h2, h0]
    rw [exec_append, ho, Option.bind_some, exec_append, hc, Option.bind_some]
    have ha : (data.map some).all Option.isSome = true := by simp
    simp only [exec, act, ha, if_true, Option.bind_some, Option.map_some, List.map_map]
    simp [Function.comp_def]

example : ∃ as : List (Act Unit), (∀ e, Act.env e ∉ as) ∧ Act.fail ∉ as ∧
    (exec () ⟨oneFile ⟨[1, 2], true⟩, .start⟩ as).map St.pc = some (.ok [1, 2]) := C192_alone () _ 0 _ rfl rfl

/-- A name without file gives an error. -/
theorem C192_missing (p : P) (fs : FS P) (h : fs.names p = none) : (exec p ⟨fs, .start⟩ [.step]).map St.pc = some .error := by
  simp [exec, act, openFile, h]

example : (exec () ⟨⟨[], fun _ => none⟩, .start⟩ [.step]).map St.pc = some .error := C192_missing () _ rfl

end Gofer.Props.ReadFile
