import Verif.Proof.Buffer

/-! # Buffers: properties C49, C50, C84 -/
namespace Gofer.Props.Buffer
open Gofer.Buffer Gofer.GoSlice Gofer.Spec.Buffer

/-- Not a read. -/
def NoRead (o : Op) : Prop := ∀ k, o ≠ .read k

/-! ### C49 -/

/-- C49, as stated: from any buffer, in any history of writes and resets, contents and results are those of a byte string
that is appended to. -/
def C49_claim : Prop := ∀ (h : Heap) (s : Slice) (os : List (Op × Nat)), Valid h s → (∀ x ∈ os, NoRead x.1) →
  bytesOf (Gofer.Buffer.run h (some s) os).1 (Gofer.Buffer.run h (some s) os).2.1 =
    (Spec.Buffer.run (bytes h s) (os.map Prod.fst)).1 ∧
  (Gofer.Buffer.run h (some s) os).2.2 = (Spec.Buffer.run (bytes h s) (os.map Prod.fst)).2

/-- C49 is false: `WriteInt32` reports 8 bytes. -/
theorem C49_claim_false : ¬ C49_claim := by
  intro h
  have := (h ⟨[[]]⟩ ⟨0, 0, 0, 0⟩ [(.writeInt32 1, 0)] ⟨by decide, by decide, by decide⟩ (by simp [NoRead])).2
  revert this
  decide +kernel

/-- The result of `WriteInt32` replaced by 8. -/
def eight : Op → Res → Res
  | .writeInt32 _, _ => .count 8 false
  | _, r => r

theorem asIsRun_eq (c : List UInt8) (os : List Op) (ho : ∀ o ∈ os, NoRead o) :
    (asIsRun c os).1 = (Spec.Buffer.run c os).1 ∧ (asIsRun c os).2 = List.zipWith eight os (Spec.Buffer.run c os).2 := by
  induction os generalizing c with
  | nil => exact ⟨rfl, rfl⟩
  | cons o os ih =>
    have h1 : (asIs c o).1 = (Spec.Buffer.step c o).1 ∧ (asIs c o).2 = eight o (Spec.Buffer.step c o).2 := by
      cases o with
      | read k => exact absurd rfl (ho (.read k) (by simp) k)
      | _ => exact ⟨rfl, rfl⟩
    have ih := ih (asIs c o).1 fun x hx => ho x (List.mem_cons_of_mem _ hx)
    simp only [asIsRun, Spec.Buffer.run, List.zipWith_cons_cons]
    rw [ih.1, ih.2, h1.1, h1.2]
    exact ⟨rfl, rfl⟩

/-- C49, what holds: from any buffer, in any history of writes and resets and whatever `append` does about capacity, the
contents are right, and so is every result except the count of `WriteInt32`, which is 8. -/
theorem C49_writes_partial (h : Heap) (s : Slice) (os : List (Op × Nat)) (v : Valid h s) (ho : ∀ x ∈ os, NoRead x.1) :
    bytesOf (Gofer.Buffer.run h (some s) os).1 (Gofer.Buffer.run h (some s) os).2.1 =
      (Spec.Buffer.run (bytes h s) (os.map Prod.fst)).1 ∧
    (Gofer.Buffer.run h (some s) os).2.2 = List.zipWith eight (os.map Prod.fst) (Spec.Buffer.run (bytes h s) (os.map Prod.fst)).2 := by
  obtain ⟨s', h1, _, h3, h4⟩ := run_some v os
  have := asIsRun_eq (bytes h s) (os.map Prod.fst) (by
    intro o hm
    obtain ⟨x, hx, rfl⟩ := List.mem_map.1 hm
    exact ho x hx)
  rw [h1, h4, ← this.2, ← this.1]
  exact ⟨h3, rfl⟩

theorem spec_concat (c : List UInt8) (os : List Op) (hr : ∀ o ∈ os, o ≠ .reset ∧ NoRead o) :
    (Spec.Buffer.run c os).1 = c ++ (os.map Op.payload).flatten := by
  induction os generalizing c with
  | nil => simp [Spec.Buffer.run]
  | cons o os ih =>
    have ih := ih (Spec.Buffer.step c o).1 fun x hx => hr x (List.mem_cons_of_mem _ hx)
    simp only [Spec.Buffer.run]
    rw [ih]
    have := hr o (by simp)
    cases o with
    | read k => exact absurd rfl (this.2 k)
    | reset => exact absurd rfl this.1
    | _ => simp [Spec.Buffer.step, Op.payload]

theorem spec_append (c : List UInt8) (os os' : List Op) :
    (Spec.Buffer.run c (os ++ os')).1 = (Spec.Buffer.run (Spec.Buffer.run c os).1 os').1 := by
  induction os generalizing c with
  | nil => rfl
  | cons o os ih => exact ih _

/-- C49, the contents in full: what was written since the last `Reset`, in order. Whatever came before the `Reset` does not
matter. -/
theorem C49_since_reset (h : Heap) (s : Slice) (os os' : List (Op × Nat)) (e : Nat) (v : Valid h s) (ho : ∀ x ∈ os, NoRead x.1)
    (ho' : ∀ x ∈ os', x.1 ≠ .reset ∧ NoRead x.1) :
    bytesOf (Gofer.Buffer.run h (some s) (os ++ (.reset, e) :: os')).1 (Gofer.Buffer.run h (some s) (os ++ (.reset, e) :: os')).2.1 =
      (os'.map fun x => x.1.payload).flatten := by
  have hall : ∀ x ∈ os ++ (Op.reset, e) :: os', NoRead x.1 := by
    intro x hx
    rcases List.mem_append.1 hx with hx | hx
    · exact ho x hx
    · rcases List.mem_cons.1 hx with rfl | hx
      · intro k hk; cases hk
      · exact (ho' x hx).2
  rw [(C49_writes_partial h s _ v hall).1, List.map_append, List.map_cons, spec_append]
  have : ∀ c, (Spec.Buffer.run c (Op.reset :: os'.map Prod.fst)).1 = (Spec.Buffer.run [] (os'.map Prod.fst)).1 := fun c => rfl
  rw [this, spec_concat _ _ (by
    intro o hm
    obtain ⟨x, hx, rfl⟩ := List.mem_map.1 hm
    exact ho' x hx), List.nil_append, List.map_map]
  rfl

/-- C49, where it begins: `NewBuffer` and `NewBufferWithCapacity` (for every capacity that is not negative; for others it panics) give an empty
buffer and leave all slices there are as they were. -/
theorem C49_new (h : Heap) :
    (Valid (newBuffer h).1 (newBuffer h).2 ∧ bytes (newBuffer h).1 (newBuffer h).2 = [] ∧ ∀ t, Valid h t → bytes (newBuffer h).1 t = bytes h t) ∧
    (∀ n : Int, n < 0 → newBufferWithCapacity h n = none) ∧
    ∀ n : Nat, ∃ h' s, newBufferWithCapacity h n = some (h', s) ∧ Valid h' s ∧ bytes h' s = [] ∧ s.cap = n ∧ ∀ t, Valid h t → bytes h' t = bytes h t := by
  refine ⟨⟨valid_make h 0, by simp [bytes, newBuffer, make], fun t ht => bytes_make_old ht 0⟩, fun n hn => if_pos hn, fun n => ?_⟩
  have v := valid_make h n
  refine ⟨(make h n).1, { (make h n).2 with len := 0 }, ?_, ⟨v.arr, v.cap, Nat.zero_le _⟩, by simp [bytes], rfl, fun t ht => bytes_make_old ht n⟩
  unfold newBufferWithCapacity
  rw [if_neg (by omega)]
  simp

/-- C49, what the capacity is for: as long as the writes make no more bytes than that, the contents stay in the same place. -/
theorem C49_capacity (h : Heap) (s : Slice) (os : List (Op × Nat)) (v : Valid h s) (hr : ∀ x ∈ os, x.1 ≠ .reset ∧ NoRead x.1)
    (hc : s.len + ((os.map fun x => x.1.payload).flatten).length ≤ s.cap) :
    ∃ s', (Gofer.Buffer.run h (some s) os).2.1 = some s' ∧ s'.arr = s.arr ∧ s'.off = s.off ∧ s'.cap = s.cap := by
  induction os generalizing h s with
  | nil => exact ⟨s, rfl, rfl, rfl, rfl⟩
  | cons x os ih =>
    obtain ⟨o, e⟩ := x
    have hno := hr (o, e) (by simp)
    have ih' := fun h s v => ih h s v fun y hy => hr y (List.mem_cons_of_mem _ hy)
    have app : ∀ p, p = o.payload → ∃ s', (Gofer.Buffer.run (append h s p e).1 (some (append h s p e).2) os).2.1 = some s' ∧
        s'.arr = s.arr ∧ s'.off = s.off ∧ s'.cap = s.cap := by
      rintro p rfl
      have hl : s.len + o.payload.length ≤ s.cap := by
        simp only [List.map_cons, List.flatten_cons, List.length_append] at hc
        omega
      have hv := (append_spec v o.payload e)
      have he : (append h s o.payload e).2 = { s with len := s.len + o.payload.length } := by
        unfold append
        rw [if_pos hl]
      obtain ⟨s', h1, h2, h3, h4⟩ := ih' _ _ hv.1 (by
        rw [he]
        simp only [List.map_cons, List.flatten_cons, List.length_append] at hc
        simp only
        omega)
      rw [he] at h1 h2 h3 h4
      exact ⟨s', by rw [he]; exact h1, h2, h3, h4⟩
    have stay : o.payload = [] → ∃ s', (Gofer.Buffer.run h (some s) os).2.1 = some s' ∧ s'.arr = s.arr ∧ s'.off = s.off ∧ s'.cap = s.cap := by
      intro hp
      refine ih' h s v ?_
      simp only [List.map_cons, List.flatten_cons, hp, List.nil_append] at hc
      exact hc
    cases o with
    | write p => exact app p rfl
    | writeString p => exact app p rfl
    | writeInt32 i => exact app _ (be32_eq i)
    | writeByte c => exact app [c] rfl
    | reset => exact absurd rfl hno.1
    | bytes => exact stay rfl
    | string => exact stay rfl
    | len => exact stay rfl
    | read k => exact absurd rfl (hno.2 k)

/-- A buffer made with capacity 4; two writes fit, the third moves the contents to a new array. -/
example : newBufferWithCapacity ⟨[]⟩ 4 = some (⟨[[0, 0, 0, 0]]⟩, ⟨0, 0, 0, 4⟩) ∧
    let r := Gofer.Buffer.run ⟨[[0, 0, 0, 0]]⟩ (some ⟨0, 0, 0, 4⟩) [(.write [1, 2], 0), (.writeByte 3, 0), (.writeInt32 0x10203, 7), (.bytes, 0), (.len, 0), (.reset, 0), (.string, 0)]
    r.2.2 = [.count 2 false, .done false, .count 8 false, .data [1, 2, 3, 0, 1, 2, 3], .count 7 false, .done false, .data []] := by
  decide +kernel

/-- C49, a nil buffer: writes fail and change nothing; `Reset` and `Len` panic. -/
theorem C49_nil (h : Heap) (o : Op) (e : Nat) (ho : NoRead o) :
    (Gofer.Buffer.step h none o e).1 = h ∧ (Gofer.Buffer.step h none o e).2.1 = none ∧
    ((Gofer.Buffer.step h none o e).2.2 = .panic ↔ o = .reset ∨ o = .len) := by
  cases o with
  | read k => exact absurd rfl (ho k)
  | _ => simp [Gofer.Buffer.step, write, writeString, writeInt32, writeByte, reset, len, bytesOf]

/-- C49, a nil buffer: what every operation returns. Writes report an error, `Bytes` and `String` give nothing. -/
theorem C49_nil_results (h : Heap) (e : Nat) :
    (∀ b, (Gofer.Buffer.step h none (.write b) e).2.2 = .count 0 true) ∧ (∀ b, (Gofer.Buffer.step h none (.writeString b) e).2.2 = .count 0 true) ∧
    (∀ i, (Gofer.Buffer.step h none (.writeInt32 i) e).2.2 = .count 0 true) ∧ (∀ c, (Gofer.Buffer.step h none (.writeByte c) e).2.2 = .done true) ∧
    (Gofer.Buffer.step h none .bytes e).2.2 = .data [] ∧ (Gofer.Buffer.step h none .string e).2.2 = .data [] := by
  refine ⟨fun _ => rfl, fun _ => rfl, fun _ => rfl, fun _ => rfl, rfl, rfl⟩

/-! ### C50 -/

/-- C50, as stated: reading with any sizes gives every byte once and then the end. -/
def C50_claim : Prop := ∀ (h : Heap) (s : Slice) (ks : List (Nat × Nat)), Valid h s →
  (Gofer.Buffer.run h (some s) (ks.map fun k => (.read k.1, k.2))).2.2 = (Spec.Buffer.run (bytes h s) (ks.map fun k => .read k.1)).2

/-- C50 is false: a read that takes everything leaves everything, so the next one returns it again. -/
theorem C50_claim_false : ¬ C50_claim := by
  intro h
  have := h ⟨[[1, 2, 3]]⟩ ⟨0, 0, 3, 3⟩ [(4, 0), (4, 0)] ⟨by decide, by decide, by decide⟩
  revert this
  decide +kernel

/-- C50, one `Read` into `k` bytes, exactly: it returns the first `k` bytes, never `io.EOF`, and takes them off only if more
is left. -/
theorem C50_read_partial (h : Heap) (s : Slice) (k e : Nat) (v : Valid h s) :
    bytesOf (Gofer.Buffer.step h (some s) (.read k) e).1 (Gofer.Buffer.step h (some s) (.read k) e).2.1 =
      (if k < (bytes h s).length then (bytes h s).drop k else bytes h s) ∧
    (Gofer.Buffer.step h (some s) (.read k) e).2.2 = .read ((bytes h s).take k) false := by
  obtain ⟨s', h1, _, h3, h4⟩ := step_some v (.read k) e
  rw [h1, h4]
  exact ⟨h3, rfl⟩

/-- Total size of a list of reads. -/
def total (ks : List (Nat × Nat)) : Nat := (ks.map Prod.fst).sum

/-- C50, what holds: reads of less than the contents in total return every byte once, in order. Missing: the read that gets
the last bytes does not consume them, and the end is never reported. -/
theorem C50_drain_partial (h : Heap) (s : Slice) (ks : List (Nat × Nat)) (v : Valid h s) (hk : total ks < (bytes h s).length) :
    (Gofer.Buffer.run h (some s) (ks.map fun k => (.read k.1, k.2))).2.2 = (Spec.Buffer.run (bytes h s) (ks.map fun k => .read k.1)).2 ∧
    bytesOf (Gofer.Buffer.run h (some s) (ks.map fun k => (.read k.1, k.2))).1
      (Gofer.Buffer.run h (some s) (ks.map fun k => (.read k.1, k.2))).2.1 = (bytes h s).drop (total ks) := by
  induction ks generalizing h s with
  | nil => simp [Gofer.Buffer.run, Spec.Buffer.run, bytesOf, total]
  | cons k ks ih =>
    have hlt : k.1 < (bytes h s).length := by simp only [total, List.map_cons, List.sum_cons] at hk; omega
    obtain ⟨s1, h1, v1, b1, r1⟩ := step_some v (.read k.1) k.2
    simp only [asIs, hlt, if_true] at b1 r1
    have ih := ih _ s1 v1 (by
      rw [b1, List.length_drop]
      simp only [total, List.map_cons, List.sum_cons] at hk ⊢
      omega)
    simp only [List.map_cons, Gofer.Buffer.run, Spec.Buffer.run]
    rw [h1, ih.1, ih.2, r1, b1]
    have hne : bytes h s ≠ [] := by
      intro e; rw [e] at hlt; simp at hlt
    constructor
    · simp [Spec.Buffer.step, hne]
    · rw [List.drop_drop]
      simp [total]

example : (Gofer.Buffer.run ⟨[[1, 2, 3, 4]]⟩ (some ⟨0, 0, 4, 4⟩) [(.read 2, 0), (.read 0, 0), (.read 1, 0)]).2.2 =
    [.read [1, 2] false, .read [] false, .read [3] false] := by decide +kernel

/-- C50, a reader loop never ends: on a buffer with contents, no sequence of reads ever gets `io.EOF`, and every read into a
non-empty slice gets some bytes. -/
theorem C50_never_ends (h : Heap) (s : Slice) (ks : List (Nat × Nat)) (v : Valid h s) (hne : bytes h s ≠ []) (hk : ∀ k ∈ ks, 0 < k.1) :
    ∀ r ∈ (Gofer.Buffer.run h (some s) (ks.map fun k => (.read k.1, k.2))).2.2, ∃ d, r = .read d false ∧ d ≠ [] := by
  induction ks generalizing h s with
  | nil => intro r hr; cases hr
  | cons k ks ih =>
    obtain ⟨s1, h1, v1, b1, r1⟩ := step_some v (.read k.1) k.2
    have hk0 := hk k (by simp)
    have hb : bytes (Gofer.Buffer.step h (some s) (.read k.1) k.2).1 s1 ≠ [] := by
      rw [b1]
      simp only [asIs]
      split
      · rename_i hlt
        intro e
        have := congrArg List.length e
        simp at this
        omega
      · exact hne
    have ih := ih _ s1 v1 hb fun x hx => hk x (List.mem_cons_of_mem _ hx)
    intro r hr
    simp only [List.map_cons, Gofer.Buffer.run] at hr
    rw [h1] at hr
    rcases List.mem_cons.1 hr with rfl | hr
    · refine ⟨(bytes h s).take k.1, by rw [r1]; rfl, ?_⟩
      intro e
      rw [List.take_eq_nil_iff] at e
      rcases e with e | e
      · omega
      · exact hne e
    · exact ih r hr

example : (Gofer.Buffer.run ⟨[[7, 8]]⟩ (some ⟨0, 0, 2, 2⟩) [(.read 1, 0), (.read 512, 0), (.read 512, 0)]).2.2 =
    [.read [7] false, .read [8] false, .read [8] false] := by decide +kernel

/-! ### C84 -/

/-- C84, as stated: the slice that `Bytes()` returned (or that `NewBufferBySlice` was given) keeps its contents whatever is
done with the buffer. -/
def C84_claim : Prop := ∀ (h : Heap) (s : Slice) (os : List (Op × Nat)), Valid h s → bytes (Gofer.Buffer.run h (some s) os).1 s = bytes h s

/-- C84 is false: `Reset` and a write overwrite it. -/
theorem C84_claim_false : ¬ C84_claim := by
  intro h
  have := h ⟨[[1, 2]]⟩ ⟨0, 0, 2, 2⟩ [(.reset, 0), (.writeByte 9, 0)] ⟨by decide, by decide, by decide⟩
  revert this
  decide +kernel

/-- C84, what holds: without `Reset`, after any number of earlier calls `os`, the slice that `Bytes()` returns at that time
keeps its contents during all later calls `os'`. Missing: `Reset` (and so returning a pooled buffer). -/
theorem C84_views_partial (h : Heap) (s : Slice) (os os' : List (Op × Nat)) (v : Valid h s) (ho : ∀ x ∈ os', x.1 ≠ .reset) :
    ∃ view, (Gofer.Buffer.run h (some s) os).2.1 = some view ∧
      bytes (Gofer.Buffer.run (Gofer.Buffer.run h (some s) os).1 (some view) os').1 view = bytes (Gofer.Buffer.run h (some s) os).1 view := by
  obtain ⟨s', h1, v1, _, _⟩ := run_some v os
  exact ⟨s', h1, run_keeps ⟨v1, v1, fun _ => Nat.le_refl _⟩ os' ho⟩

/-- A write in place behind the view, a read, and a move to a new array. -/
example : let h : Heap := ⟨[[1, 2, 0, 0]]⟩
    let r := Gofer.Buffer.run h (some ⟨0, 0, 2, 4⟩) [(.writeByte 3, 0), (.read 1, 0), (.write [4, 5, 6], 0)]
    bytes r.1 ⟨0, 0, 2, 4⟩ = [1, 2] ∧ bytesOf r.1 r.2.1 = [2, 3, 4, 5, 6] := by decide +kernel

/-- C84, the other side: spare capacity of the slice given to `NewBufferBySlice` is written to, so a longer slice of the same
array does change. -/
theorem C84_spare_capacity : ∃ (h : Heap) (long short : Slice), Valid h long ∧ Valid h short ∧ long.arr = short.arr ∧
    bytes (Gofer.Buffer.run (newBufferBySlice h short).1 (some (newBufferBySlice h short).2) [(.writeByte 9, 0)]).1 long ≠ bytes h long :=
  ⟨⟨[[1, 2, 3]]⟩, ⟨0, 0, 3, 3⟩, ⟨0, 0, 1, 3⟩, ⟨by decide, by decide, by decide⟩, ⟨by decide, by decide, by decide⟩, rfl, by decide +kernel⟩

end Gofer.Props.Buffer
