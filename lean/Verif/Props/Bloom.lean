import Verif.Proof.Bloom

/-! # `BloomFilter`: properties C30–C32 -/
namespace Gofer.Props.Bloom
open Gofer.Bloom
open Gofer.Spec.Bloom
variable {I : Type}

/-- C30/C31. The exact meaning of `Contains`: after every history there is a number `w` of remembered
Adds, depending only on the number of Adds so far, with `min n (E+1) ≤ w ≤ 2E+1`, and `Contains(x)` is
true iff every bit position of `x` is a position of one of the last `w` added items. -/
theorem C31_contains_exact (k W E : Nat) (hk : 0 < k) (hW : 0 < W) (hE : 0 < E) :
    ∃ w : Nat → Nat, (∀ n, min n (E + 1) ≤ w n ∧ w n ≤ 2 * E + 1) ∧
      ∀ (hash : Nat → I → UInt64) (os : List (Op I)) (x : I),
        (contains hash (final hash (new k W E) os) x).2 = true ↔
        Hit k (pos hash W) (last (w (adds os).length) (adds os)) x := by
  refine ⟨window E, fun n => ⟨(window_bounds E hE n).1, (window_bounds E hE n).2.1⟩, ?_⟩
  intro hash os x
  have h := inv_final hash hk hW hE os (inv_new hash hE)
  rw [List.nil_append] at h
  exact (contains_of_inv hW hE h x).2

/-- C31. Older Adds have no influence: two histories with the same number of Adds and the same last
`2E+1` items answer alike. -/
theorem C31_forgets (hash : Nat → I → UInt64) (k W E : Nat) (hk : 0 < k) (hW : 0 < W) (hE : 0 < E) (os os' : List (Op I))
    (hn : (adds os).length = (adds os').length) (hl : last (2 * E + 1) (adds os) = last (2 * E + 1) (adds os')) (x : I) :
    (contains hash (final hash (new k W E) os) x).2 = (contains hash (final hash (new k W E) os') x).2 := by
  obtain ⟨w, hw, h⟩ := C31_contains_exact (I := I) k W E hk hW hE
  have e : last (w (adds os).length) (adds os) = last (w (adds os').length) (adds os') := by
    have hb := (hw (adds os).length).2
    rw [← hn]
    generalize w (adds os).length = v at hb
    have e1 : ∀ l : List I, last v l = last v (last (2 * E + 1) l) := by
      intro l
      unfold last
      rw [List.drop_drop, List.length_drop]
      congr 1; omega
    rw [e1, e1 (adds os'), hl]
  rw [Bool.eq_iff_iff, h hash os x, h hash os' x, e]

/-- C31. With no Adds nothing is contained, and `Contains` never changes an answer. -/
theorem C31_empty (hash : Nat → I → UInt64) (k W E : Nat) (hk : 0 < k) (hW : 0 < W) (hE : 0 < E) (os : List (Op I)) (h0 : adds os = []) (x : I) :
    (contains hash (final hash (new k W E) os) x).2 = false := by
  obtain ⟨w, _, h⟩ := C31_contains_exact (I := I) k W E hk hW hE
  rw [← Bool.not_eq_true, h hash os x, h0]
  intro hc
  obtain ⟨y, hy, _⟩ := hc 0 hk
  simp [last] at hy

/-- C30. No false negatives: an item stays contained through at least `E` further Adds (and any number
of Contains calls). -/
theorem C30_no_false_negative_partial (hash : Nat → I → UInt64) (k W E : Nat) (hk : 0 < k) (hW : 0 < W) (hE : 0 < E)
    (before after : List (Op I)) (x : I) (ha : (adds after).length ≤ E) :
    (contains hash (final hash (new k W E) (before ++ .add x :: after)) x).2 = true := by
  obtain ⟨w, hw, h⟩ := C31_contains_exact (I := I) k W E hk hW hE
  rw [h]
  have hadds : ∀ a b : List (Op I), adds (a ++ b) = adds a ++ adds b := by
    intro a b
    induction a with
    | nil => rfl
    | cons o a ih => cases o <;> simp [adds, ih]
  intro i hi
  refine ⟨x, ?_, i, hi, rfl⟩
  rw [hadds]
  simp only [adds]
  obtain ⟨h1, _⟩ := hw (adds before ++ x :: adds after).length
  generalize w (adds before ++ x :: adds after).length = v at h1
  have hlen : (adds before ++ x :: adds after).length = (adds before).length + (adds after).length + 1 := by
    simp; omega
  unfold last
  rw [hlen] at h1 ⊢
  rw [List.drop_append_of_le_length (by omega)]
  exact List.mem_append_right _ (by simp)

/-- C30, as stated, for the filters the constructor can build, including the empty bit array. -/
def C30_claim : Prop := ∀ (hash : Nat → Nat → UInt64) (k W E : Nat), 0 < k → 0 < E →
  ∀ (before after : List (Op Nat)) (x : Nat), (adds after).length ≤ E →
    (contains hash (final hash (new k W E) (before ++ .add x :: after)) x).2 = true

/-- C30 is false for `arraySize = 0`, e.g. `NewBloomFilter(1, 0.9)`, where the computed number of bits
rounds down to 0: nothing is ever contained. -/
theorem C30_claim_false : ¬ C30_claim := by
  intro h
  have := h (fun _ _ => 0) 1 0 1 (by decide) (by decide) [] [] 5 (by decide)
  revert this
  decide +kernel

/-! ### Concurrent Adds -/

/-- C32, as stated: when all concurrent Adds have returned, all their bits are set. -/
def C32_claim : Prop := ∀ (n : Nat) (words : Nat → UInt64) (todo : Fin n → List Nat) (as : List (Act n)) (s : Conc n),
  Conc.exec ⟨words, fun g => ⟨todo g, none⟩⟩ as = some s → (∀ g, s.thr g = ⟨[], none⟩) →
  ∀ g, ∀ q ∈ todo g, bitOf s.words q = true

/-- Two goroutines setting bits 0 and 1 of the same word: the second store overwrites the first. -/
def raceSchedule : List (Act 2) := [.load 0, .load 1, .store 0, .store 1]

/-- C32 is false: a lost update makes an added item absent. -/
theorem C32_claim_false : ¬ C32_claim := by
  intro h
  have h1 := h 2 (fun _ => 0) (fun g => [g.val]) raceSchedule
  cases he : Conc.exec (n := 2) ⟨fun _ => 0, fun g => ⟨[g.val], none⟩⟩ raceSchedule with
  | none =>
    have : (Conc.exec (n := 2) ⟨fun _ => 0, fun g => ⟨[g.val], none⟩⟩ raceSchedule).isSome = true := by decide +kernel
    rw [he] at this; simp at this
  | some s =>
    have e1 : ((Conc.exec (n := 2) ⟨fun _ => 0, fun g => ⟨[g.val], none⟩⟩ raceSchedule).map fun s => s.thr 0) = some ⟨[], none⟩ := by decide +kernel
    have e2 : ((Conc.exec (n := 2) ⟨fun _ => 0, fun g => ⟨[g.val], none⟩⟩ raceSchedule).map fun s => s.thr 1) = some ⟨[], none⟩ := by decide +kernel
    have e3 : ((Conc.exec (n := 2) ⟨fun _ => 0, fun g => ⟨[g.val], none⟩⟩ raceSchedule).map fun s => bitOf s.words 0) = some false := by decide +kernel
    rw [he] at e1 e2 e3
    simp only [Option.map_some, Option.some.injEq] at e1 e2 e3
    have := h1 s he (fun g => by
      match g with
      | 0 => exact e1
      | 1 => exact e2) 0 0 (by simp)
    rw [e3] at this; simp at this

/-- C32 (what holds): if different goroutines set bits in different words, no bit is lost, neither the
new ones nor the ones set before. -/
theorem C32_disjoint_words_partial (n : Nat) (words : Nat → UInt64) (todo : Fin n → List Nat) (as : List (Act n)) (s : Conc n)
    (hd : ∀ g g', g ≠ g' → ∀ q ∈ todo g, ∀ q' ∈ todo g', q / 64 ≠ q' / 64)
    (he : Conc.exec ⟨words, fun g => ⟨todo g, none⟩⟩ as = some s) (hdone : ∀ g, s.thr g = ⟨[], none⟩) :
    (∀ g, ∀ q ∈ todo g, bitOf s.words q = true) ∧ ∀ q, bitOf words q = true → bitOf s.words q = true := by
  have h : CInv words todo s := cinv_exec hd as ⟨fun g => ⟨[], by simp⟩, by simp, fun q hq => hq⟩ he
  refine ⟨?_, h.keep⟩
  intro g q hq
  obtain ⟨d, h1, h2⟩ := h.done g
  rw [hdone g] at h1
  rw [h1] at hq
  exact h2 q (by simpa using hq)

/-! ### Concrete cases -/

example : (contains (fun i x => (i * 7 + x * 13).toUInt64) (final (fun i x => (i * 7 + x * 13).toUInt64) (new 2 1 2)
    [.add 1, .add 2, .add 3, .contains 9]) 1).2 = true := by decide +kernel
example : (contains (fun i x => (i * 7 + x * 13).toUInt64) (final (fun i x => (i * 7 + x * 13).toUInt64) (new 2 1 2)
    [.add 1, .add 20, .add 31, .add 40, .add 50, .add 60]) 1).2 = false := by decide +kernel
example : adds [Op.add 1, .contains 7, .add 2] = [1, 2] := rfl
example : ((Conc.exec (n := 2) ⟨fun _ => 0, fun g => ⟨[g.val * 64 + 3], none⟩⟩
    [.load 0, .load 1, .store 1, .store 0]).map fun s => (bitOf s.words 3, bitOf s.words 67)) = some (true, true) := by decide +kernel

end Gofer.Props.Bloom
