import Verif.Proof.WsWire

/-! # WebSocket messages on the wire: C256–C259 -/
namespace Gofer.Props.WsWire
open Gofer.WsWire Gofer.Spec.WsWire

/-! ### C256 -/

/-- **C256**: what `Send`s write, one after another, with any masking keys, is read by any receiver that keeps to RFC 6455 as one whole binary
message for each call, with the bytes given to `Send`, in order, and nothing else. -/
theorem C256_send (ms : List (List UInt8 × List UInt8)) (h : ∀ m ∈ ms, m.1.length = 4 ∧ m.2.length < 2 ^ 63) :
    parseAll ms.length (ms.flatMap fun m => send m.1 m.2) = some (ms.map fun m => ⟨true, .binary, m.2⟩) := by
  induction ms with
  | nil => rfl
  | cons m ms ih =>
    have hm := h m (by simp)
    have e : send m.1 m.2 = Frame.bytes ⟨true, .binary, m.2⟩ (some m.1) := frame_bytes .binary m.1 m.2
    rw [List.flatMap_cons, e, List.length_cons, List.map_cons]
    have hp := parse_bytes ⟨true, .binary, m.2⟩ m.1 (ms.flatMap fun m => send m.1 m.2) hm.1 hm.2
    have ih := ih fun n hn => h n (by simp [hn])
    have hne : Frame.bytes ⟨true, .binary, m.2⟩ (some m.1) ++ (ms.flatMap fun m => send m.1 m.2) ≠ [] := by simp [bytes_key]
    generalize hbs : Frame.bytes ⟨true, .binary, m.2⟩ (some m.1) ++ (ms.flatMap fun m => send m.1 m.2) = bs at hp hne
    cases bs with
    | nil => exact absurd rfl hne
    | cons b bs =>
      rw [parseAll, hp]
      simp only [Option.bind_some]
      rw [ih]
      rfl
      exact hne

/-- **C256**: pongs and the close frame that the handler itself writes are frames of their kind too, so that a receiver finds the next
`Send` where it begins. -/
theorem C256_frames (op : Op) (key msg rest : List UInt8) (hk : key.length = 4) (hn : msg.length < 2 ^ 63) :
    parse (frame (UInt8.ofNat op.code) key msg ++ rest) = some (⟨true, op, msg⟩, rest) := by
  rw [frame_bytes]
  exact parse_bytes ⟨true, op, msg⟩ key rest hk hn

/-- Two sends; the second is empty. -/
example : parseAll 2 ([([1, 2, 3, 4], [7, 8, 9, 10, 11]), ([9, 9, 9, 9], [])].flatMap fun m => send m.1 m.2) =
    some [⟨true, .binary, [7, 8, 9, 10, 11]⟩, ⟨true, .binary, []⟩] := by decide +kernel
example : send [1, 2, 3, 4] [7, 8, 9, 10, 11] = [0x82, 0x85, 1, 2, 3, 4, 6, 10, 10, 14, 10] := by decide +kernel

/-! ### C257 -/

/-- **C257**, the claim: `OnMessage` gets the messages that the server sends, whole and in order. -/
def C257_claim : Prop := ∀ (e : Ending) (fs : List Frame), Legal false fs → (reader e (stream fs)).delivered = messages none fs

/-- A message in two fragments, a ping between them. -/
def fragmented : List Frame := [⟨false, .text, [104, 105]⟩, ⟨true, .ping, []⟩, ⟨true, .cont, [33]⟩]

/-- **C257 is false**: each fragment of a message is given to `OnMessage` as a message. -/
theorem C257_claim_false : ¬ C257_claim := by
  intro h
  have := h .eof fragmented (by simp [fragmented, Legal])
  revert this
  decide +kernel

/-- **C257 is false** also for messages that are not fragmented, if they are longer than 32 MB. -/
theorem C257_too_large (e : Ending) (p : List UInt8) (rest : List UInt8) (hp : maxPayload < p.length) (hn : p.length < 2 ^ 63) :
    reader e (Frame.bytes ⟨true, .binary, p⟩ none ++ rest) = stop .tooLarge := by
  rw [bytes_head, List.append_assoc, reader_step e (readHeader_head ⟨true, .binary, p⟩ _ hn)]
  have h1 : ¬ (UInt8.ofNat (Op.code .binary) = 8) := by decide
  have h2 : ¬ (UInt8.ofNat (Op.code .binary) = 9 ∨ UInt8.ofNat (Op.code .binary) = 10) := by decide
  simp only [Bool.false_eq_true, if_false, h1, h2, hp, if_true]

/-- The limit on data frames. -/
def Small (fs : List Frame) : Prop := ∀ f ∈ fs, f.op.control = false → f.payload.length ≤ 32 * 2 ^ 20

theorem legal_control {b : Bool} {fs : List Frame} (h : Legal b fs) : ∀ f ∈ fs, f.op.control = true → f.payload.length ≤ 125 := by
  induction fs generalizing b with
  | nil => simp
  | cons g fs ih =>
    intro f hf hc
    obtain ⟨_, h⟩ := h
    rcases List.mem_cons.1 hf with rfl | hf
    · cases hop : f.op <;> rw [hop] at h hc <;> first
        | exact h.2.1
        | cases hc
    · cases hop : g.op <;> rw [hop] at h <;> first
        | exact ih h.2.2 f hf hc
        | exact ih h.2 f hf hc

theorem both {b : Bool} {fs : List Frame} (h : Legal b fs) (hs : Small fs) : ∀ f ∈ fs, (f.op.control = true → f.payload.length ≤ 125) ∧
    (f.op.control = false → f.payload.length ≤ maxPayload) :=
  fun f hf => ⟨legal_control h f hf, hs f hf⟩

/-- No message is fragmented. -/
def Whole (fs : List Frame) : Prop := ∀ f ∈ fs, f.fin = true ∧ f.op ≠ .cont

theorem datas_whole {fs : List Frame} (h : Whole fs) (acc : Option (List UInt8)) : datas fs = messages acc fs := by
  induction fs generalizing acc with
  | nil => rfl
  | cons f fs ih =>
    have hf := h f (by simp)
    have ih := ih fun g hg => h g (by simp [hg])
    cases hop : f.op
    case cont => exact absurd hop hf.2
    case close => simp [datas, messages, hop]
    case ping => simp only [datas, messages, hop]; exact ih acc
    case pong => simp only [datas, messages, hop]; exact ih acc
    all_goals simp only [datas, messages, hop, hf.1, if_true]; rw [ih none]

/-- **C257, the part that holds**: messages that are not fragmented and not longer than 32 MB, with pings and pongs anywhere between them, are
given to `OnMessage` whole and in order, up to a close frame or the end of the connection. Missing: fragmented messages and longer ones
(false). -/
theorem C257_whole_partial (e : Ending) (fs : List Frame) (hl : Legal false fs) (hs : Small fs) (hw : Whole fs) :
    (reader e (stream fs)).delivered = messages none fs ∧
    (reader e (stream fs)).err = if fs.any (fun f => f.op = .close) then .eof else e.err := by
  have h := reader_frames e fs [] (both hl hs)
  rw [List.append_nil] at h
  have hn : reader e [] = stop e.err := reader_end e rfl
  rw [h, hn]
  refine ⟨?_, ?_⟩
  · rw [← datas_whole hw none]
    simp only
    split <;> simp [stop]
  · simp only
    unfold closes
    split <;> simp [stop]

theorem datas_flat {b : Bool} {fs : List Frame} (acc : List UInt8) (hl : Legal b fs) (hb : b = false → acc = [])
    (hend : ∀ f ∈ fs, f.op ≠ .close) :
    ∃ tail, acc ++ (datas fs).flatten = (messages (if b then some acc else none) fs).flatten ++ tail := by
  induction fs generalizing b acc with
  | nil => exact ⟨acc, by simp [datas, messages]⟩
  | cons f fs ih =>
    obtain ⟨_, hl⟩ := hl
    have hend' : ∀ g ∈ fs, g.op ≠ .close := fun g hg => hend g (by simp [hg])
    cases hop : f.op <;> rw [hop] at hl
    case close => exact absurd hop (hend f (by simp))
    case ping => simp only [datas, messages, hop]; exact ih acc hl.2.2 hb hend'
    case pong => simp only [datas, messages, hop]; exact ih acc hl.2.2 hb hend'
    case cont =>
      obtain ⟨rfl, hl⟩ := hl
      simp only [datas, messages, hop, if_true, Option.getD_some]
      cases hf : f.fin <;> rw [hf] at hl
      · obtain ⟨t, ht⟩ := ih (acc ++ f.payload) hl (by simp) hend'
        exact ⟨t, by simpa using ht⟩
      · obtain ⟨t, ht⟩ := ih [] hl (by simp) hend'
        refine ⟨t, ?_⟩
        simp only [Bool.not_true, Bool.false_eq_true, if_false, List.nil_append] at ht
        simp [ht]
    all_goals
      obtain ⟨rfl, hl⟩ := hl
      have hacc := hb rfl
      subst hacc
      simp only [datas, messages, hop, List.nil_append, Bool.false_eq_true, if_false]
      cases hf : f.fin <;> rw [hf] at hl
      · obtain ⟨t, ht⟩ := ih f.payload hl (by simp) hend'
        exact ⟨t, by simpa using ht⟩
      · obtain ⟨t, ht⟩ := ih [] hl (by simp) hend'
        refine ⟨t, ?_⟩
        simp only [Bool.not_true, Bool.false_eq_true, if_false, List.nil_append] at ht
        simp [ht]

/-- **C257**, fragmented messages: no byte is lost or out of place: what `OnMessage` gets, put together, are the messages, put together, followed
by the fragments of a message that is not finished. -/
theorem C257_bytes_partial (e : Ending) (fs : List Frame) (hl : Legal false fs) (hs : Small fs) (hc : ∀ f ∈ fs, f.op ≠ .close) :
    ∃ tail, (reader e (stream fs)).delivered.flatten = (messages none fs).flatten ++ tail := by
  have h := reader_frames e fs [] (both hl hs)
  rw [List.append_nil] at h
  have hn : reader e [] = stop e.err := reader_end e rfl
  obtain ⟨t, ht⟩ := datas_flat [] hl (by simp) hc
  refine ⟨t, ?_⟩
  have hcl : closes fs = false := by
    unfold closes
    rw [List.any_eq_false]
    intro f hf
    simpa using hc f hf
  rw [h, hn, hcl]
  simpa [stop] using ht

/-- A text, a ping, a binary message, a close frame, and something that does not count any more. -/
def sample : List Frame := [⟨true, .text, [104, 105]⟩, ⟨true, .ping, [1]⟩, ⟨true, .binary, []⟩, ⟨true, .close, [3, 232]⟩, ⟨true, .text, [0]⟩]
example : Legal false sample ∧ Small sample ∧ Whole sample ∧ messages none sample = [[104, 105], []] :=
  ⟨by simp [sample, Legal], by simp [sample, Small], by simp [sample, Whole], by decide +kernel⟩
example : Legal false fragmented ∧ messages none fragmented = [[104, 105, 33]] ∧ (reader .eof (stream fragmented)).delivered = [[104, 105], [33]] :=
  ⟨by simp [fragmented, Legal], by decide +kernel, by decide +kernel⟩

/-! ### C258 -/

/-- **C258**, the claim: if the connection ends early, at any byte, `OnMessage` still gets only messages that the server sent, and these in
order. -/
def C258_claim : Prop :=
  ∀ (e : Ending) (fs : List Frame) (m : Nat), Legal false fs → Small fs → Whole fs → (reader e ((stream fs).take m)).delivered <+: messages none fs

/-- **C258 is false**: if the connection ends (in an orderly way) within a message, `OnMessage` gets the part that has come, as if it were the
message. -/
theorem C258_claim_false : ¬ C258_claim := by
  intro h
  have := h .eof [⟨true, .text, [104, 105]⟩] 3 (by simp [Legal]) (by simp [Small]) (by simp [Whole])
  revert this
  decide +kernel

/-- **C258, the part that holds**: `OnMessage` gets the messages that have come whole, in order, and after them at most the first part of
one more, and this only if the connection ended in an orderly way; after an error (a reset, a timeout) it gets whole messages only.
Missing: orderly ends within a message (false). -/
theorem C258_cut_partial (e : Ending) (fs : List Frame) (m : Nat) (hl : Legal false fs) (hs : Small fs) (hw : Whole fs) :
    (reader e ((stream fs).take m)).delivered <+: messages none fs ∨
    (e = .eof ∧ ∃ (ms : List (List UInt8)) (msg part : List UInt8), (reader e ((stream fs).take m)).delivered = ms ++ [part] ∧
      ms ++ [msg] <+: messages none fs ∧ part <+: msg ∧ part.length < msg.length) := by
  rcases stream_take fs m with h | ⟨a, b, f, k, hfs, hk, ht⟩
  · left
    rw [h, (C257_whole_partial e fs hl hs hw).1]
    exact List.prefix_refl _
  · have hb := both hl hs
    have hbf := hb f (by rw [hfs]; simp)
    rw [ht, ← datas_whole hw none, hfs, datas_append]
    have hr := reader_frames e a ((f.bytes none).take k) (fun g hg => hb g (by rw [hfs]; simp [hg]))
    rw [hr]
    simp only
    cases hcl : closes a
    · simp only [Bool.false_eq_true, if_false]
      rw [reader_cut e f k hk hbf.1 hbf.2]
      split
      · rename_i hc
        obtain ⟨he, hnc, hh⟩ := hc
        right
        have hd : datas (f :: b) = f.payload :: datas b := by
          cases hop : f.op <;> rw [hop] at hnc <;> first
            | (simp only [datas, hop]; done)
            | cases hnc
        refine ⟨he, datas a, f.payload, _, rfl, ?_, List.take_prefix _ _, ?_⟩
        · rw [hd]
          exact ⟨datas b, by simp⟩
        · rw [bytes_head, List.length_append] at hk
          rw [List.length_take]
          omega
      · left
        rw [List.append_nil]
        exact List.prefix_append _ _
    · left
      simp [stop]

/-- After a reset: whole messages only. -/
theorem C258_reset (fs : List Frame) (m : Nat) (hl : Legal false fs) (hs : Small fs) (hw : Whole fs) :
    (reader .error ((stream fs).take m)).delivered <+: messages none fs := by
  rcases C258_cut_partial .error fs m hl hs hw with h | ⟨h, _⟩
  · exact h
  · cases h

/-- The sample, cut within the first text: with an orderly end one part of a message, after a reset none. -/
example : (reader .eof ((stream sample).take 3)).delivered = [[104]] ∧ (reader .error ((stream sample).take 3)).delivered = [] := by decide +kernel

/-! ### C259 -/

/-- **C259**: every ping before a close frame is answered by a pong with the same bytes, in order, and nothing else is written, before the close
frame at the end (status 1000). -/
theorem C259_pongs (e : Ending) (fs : List Frame) (hl : Legal false fs) (hs : Small fs) :
    (reader e (stream fs)).written = (pings fs).map (fun p => (10, p)) ++ [(8, [0x03, 0xe8])] := by
  have h := reader_frames e fs [] (both hl hs)
  rw [List.append_nil] at h
  have hn : reader e [] = stop e.err := reader_end e rfl
  rw [h, hn]
  simp only
  split <;> simp [stop]

/-- **C259**: whatever bytes a server sends, the handler ends with one close frame with status 1000, and what it writes before are pongs of at most
125 bytes and at most a close frame with status 1002; `OnMessage` is called at most once for every two bytes received, with at most 32 MB each
time and not more bytes than came. -/
theorem C259_any_bytes (e : Ending) (bs : List UInt8) :
    2 * (reader e bs).delivered.length ≤ bs.length ∧ ((reader e bs).delivered.map List.length).sum ≤ bs.length ∧
    (∀ d ∈ (reader e bs).delivered, d.length ≤ 32 * 2 ^ 20) ∧
    (∀ w ∈ (reader e bs).written, w.2.length ≤ 125) ∧
    ∃ l, (reader e bs).written = l ++ [(8, [0x03, 0xe8])] ∧ ∀ w ∈ l, w.1 = 10 ∨ w = (8, [0x03, 0xea]) := by
  have h := tame_loop e (bs.length + 1) bs
  exact ⟨h.count, h.total, h.each, fun w hw => (h.pongs w hw).1, h.last⟩

/-- **C259**: a masked frame, which a server must not send, ends the connection, with status 1002. -/
theorem C259_masked (e : Ending) (b0 b1 : UInt8) (rest : List UInt8) (hb : 128 ≤ b1.toNat) (hl : 12 ≤ rest.length) :
    (reader e (b0 :: b1 :: rest)).delivered = [] ∧ (reader e (b0 :: b1 :: rest)).written = [(8, [0x03, 0xea]), (8, [0x03, 0xe8])] := by
  have hm : (b1 &&& 0x80 != 0) = true := by
    have all : ∀ n : Fin 256, 128 ≤ n.val → (UInt8.ofNat n.val &&& 0x80 != 0) = true := by decide +kernel
    have := all ⟨b1.toNat, b1.toNat_lt⟩ hb
    rwa [UInt8.ofNat_toNat] at this
  have hr : ∃ h r, readHeader (b0 :: b1 :: rest) = some (h, r) ∧ h.masked = true := by
    simp only [readHeader, hm, if_true]
    have hk : (if b1 &&& 0x7f ≤ 125 then 0 else if b1 &&& 0x7f = 126 then 2 else 8) ≤ 8 := by split <;> (try split) <;> omega
    generalize (if b1 &&& 0x7f ≤ 125 then 0 else if b1 &&& 0x7f = 126 then 2 else 8) = k at hk ⊢
    rw [if_neg (by omega), if_neg (by simp; omega)]
    exact ⟨_, _, rfl, rfl⟩
  obtain ⟨h, r, hr, hm⟩ := hr
  rw [reader_step e hr, if_pos hm]
  exact ⟨rfl, rfl⟩

example : pings sample = [[1]] ∧ (reader .eof (stream sample)).written = [(10, [1]), (8, [0x03, 0xe8])] := by decide +kernel

end Gofer.Props.WsWire
