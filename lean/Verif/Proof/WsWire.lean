import Verif.Model.WsWire
import Mathlib.Data.List.Basic

/-! # WebSocket frames: lemmas -/
namespace Gofer.WsWire
open Gofer.Spec.WsWire

/-! ### Lengths -/

theorem be_length (k n : Nat) : (be k n).length = k := by
  induction k with
  | zero => rfl
  | succ k ih => simp [be, ih]

theorem be_foldl (k n a : Nat) : (be k n).foldl (fun a b => a * 256 + b.toNat) a = a * 256 ^ k + n % 256 ^ k := by
  induction k generalizing a with
  | zero => simp [be, Nat.mod_one]
  | succ k ih =>
    rw [be, List.foldl_cons, ih, UInt8.toNat_ofNat']
    have h1 : n % 256 ^ (k + 1) = n % 256 ^ k + 256 ^ k * (n / 256 ^ k % 256) := by
      rw [Nat.pow_succ, Nat.mod_mul]
    have h2 : (2 : Nat) ^ 8 = 256 := by decide
    rw [h1, h2, Nat.pow_succ, Nat.add_mul, Nat.mul_assoc, Nat.mul_comm (256 : Nat) (256 ^ k), Nat.mul_comm (n / 256 ^ k % 256)]
    omega

theorem ofNat_shift (n s : Nat) : UInt8.ofNat ((n >>> s) &&& 0xff) = UInt8.ofNat (n / 2 ^ s) := by
  apply UInt8.toNat_inj.1
  rw [UInt8.toNat_ofNat', UInt8.toNat_ofNat', Nat.shiftRight_eq_div_pow]
  have : n / 2 ^ s &&& 0xff = n / 2 ^ s % 2 ^ 8 := Nat.and_two_pow_sub_one_eq_mod _ 8
  rw [this, Nat.mod_mod]

theorem lenFields_two (n : Nat) : lenFields 2 n = be 2 n := by
  show [UInt8.ofNat ((n >>> 8) &&& 0xff), UInt8.ofNat ((n >>> 0) &&& 0xff)] = _
  rw [ofNat_shift, ofNat_shift]
  rfl

theorem lenFields_eight (n : Nat) : lenFields 8 n = be 8 n := by
  show [UInt8.ofNat ((n >>> 56) &&& 0xff), UInt8.ofNat ((n >>> 48) &&& 0xff), UInt8.ofNat ((n >>> 40) &&& 0xff), UInt8.ofNat ((n >>> 32) &&& 0xff),
    UInt8.ofNat ((n >>> 24) &&& 0xff), UInt8.ofNat ((n >>> 16) &&& 0xff), UInt8.ofNat ((n >>> 8) &&& 0xff), UInt8.ofNat ((n >>> 0) &&& 0xff)] = _
  simp only [ofNat_shift]
  rfl

theorem lenFields_zero (n : Nat) : lenFields 0 n = [] := rfl

/-! ### Writing -/

theorem or_len : ∀ n : Fin 126, (0x80 : UInt8) ||| UInt8.ofNat n.val = UInt8.ofNat (128 + n.val) := by decide +kernel
theorem or_op (op : Op) : (0x80 : UInt8) ||| UInt8.ofNat op.code = UInt8.ofNat (128 + op.code) := by cases op <;> decide +kernel

theorem frame_bytes (op : Op) (key msg : List UInt8) : frame (UInt8.ofNat op.code) key msg = Frame.bytes ⟨true, op, msg⟩ (some key) := by
  unfold frame Frame.bytes
  simp only [Option.isSome_some, if_true, or_op]
  by_cases h1 : msg.length ≤ 125
  · have := or_len ⟨msg.length, by omega⟩
    simp only at this
    simp [h1, this, lenFields_zero, mask]
  · by_cases h2 : msg.length < 65536
    · have : (0x80 : UInt8) ||| 126 = 254 := rfl
      simp [h1, h2, lenFields_two, mask, this]
    · have : (0x80 : UInt8) ||| 127 = 255 := rfl
      simp [h1, h2, lenFields_eight, mask, this]

theorem mask_length (key p : List UInt8) : (mask key p).length = p.length := by simp [mask]

theorem mask_mask (key p : List UInt8) : mask key (mask key p) = p := by
  apply List.ext_getElem?
  intro i
  simp only [mask, List.getElem?_mapIdx, Option.map_map, Function.comp_def, UInt8.xor_assoc, UInt8.xor_self, UInt8.xor_zero]
  simp

/-- The first byte of a frame. -/
def first (f : Frame) : UInt8 := UInt8.ofNat ((if f.fin then 128 else 0) + f.op.code)

/-- The length part of a frame. -/
def lenPart (m n : Nat) : List UInt8 :=
  if n ≤ 125 then [UInt8.ofNat (m + n)] else if n < 65536 then UInt8.ofNat (m + 126) :: be 2 n else UInt8.ofNat (m + 127) :: be 8 n

theorem lenPart_short {n : Nat} (m : Nat) (h : n ≤ 125) : lenPart m n = [UInt8.ofNat (m + n)] := if_pos h
theorem lenPart_mid {n : Nat} (m : Nat) (h : ¬ n ≤ 125) (h2 : n < 65536) : lenPart m n = UInt8.ofNat (m + 126) :: be 2 n := by
  rw [lenPart, if_neg h, if_pos h2]
theorem lenPart_long {n : Nat} (m : Nat) (h : ¬ n ≤ 125) (h2 : ¬ n < 65536) : lenPart m n = UInt8.ofNat (m + 127) :: be 8 n := by
  rw [lenPart, if_neg h, if_neg h2]

theorem bytes_key (f : Frame) (key : List UInt8) :
    f.bytes (some key) = first f :: (lenPart 128 f.payload.length ++ (key ++ mask key f.payload)) := rfl

theorem bytes_none (f : Frame) :
    f.bytes none = first f :: (lenPart 0 f.payload.length ++ f.payload) := rfl

theorem op_parse (f : Frame) : opOf ((first f).toNat % 128) = some f.op := by
  unfold first
  cases f.fin <;> cases f.op <;> rfl

theorem fin_parse (f : Frame) : decide (128 ≤ (first f).toNat) = f.fin := by
  unfold first
  cases f.fin <;> cases f.op <;> rfl

/-- A receiver gets the frame back. -/
theorem parse_bytes (f : Frame) (key rest : List UInt8) (hk : key.length = 4) (hn : f.payload.length < 2 ^ 63) :
    parse (f.bytes (some key) ++ rest) = some (f, rest) := by
  rw [bytes_key]
  -- the part behind the length
  have tail : ∀ (b1 : UInt8) (l : List UInt8) (k n : Nat), l.length = k → n = f.payload.length →
      (if b1.toNat % 128 ≤ 125 then 0 else if b1.toNat % 128 = 126 then 2 else 8) = k →
      (if b1.toNat % 128 ≤ 125 then b1.toNat % 128 else l.foldl (fun a b => a * 256 + b.toNat) 0) = n →
      128 ≤ b1.toNat → ¬ (k = 2 ∧ n ≤ 125) → ¬ (k = 8 ∧ n < 65536) →
      parse (first f :: (b1 :: (l ++ (key ++ mask key f.payload))) ++ rest) = some (f, rest) := by
    intro b1 l k n hl hnn e1 e2 h128 hk2 hk8
    simp only [List.cons_append, parse, op_parse, fin_parse, e1]
    have ht : (l ++ (key ++ mask key f.payload) ++ rest).take k = l := by
      rw [List.append_assoc, ← hl, List.take_left]
    have hd : (l ++ (key ++ mask key f.payload) ++ rest).drop k = key ++ (mask key f.payload ++ rest) := by
      rw [List.append_assoc, ← hl, List.drop_left, List.append_assoc]
    have hk1 : (key ++ (mask key f.payload ++ rest)).take 4 = key := by rw [← hk, List.take_left]
    have hk2' : (key ++ (mask key f.payload ++ rest)).drop 4 = mask key f.payload ++ rest := by rw [← hk, List.drop_left]
    have hm : (mask key f.payload ++ rest).take n = mask key f.payload := by rw [hnn, ← mask_length key, List.take_left]
    have hm' : (mask key f.payload ++ rest).drop n = rest := by rw [hnn, ← mask_length key, List.drop_left]
    rw [ht, hd, e2, hk1, hk2', hm, hm', mask_mask]
    have hlen : (l ++ (key ++ mask key f.payload) ++ rest).length = k + 4 + n + rest.length := by
      simp [hl, hk, mask_length, hnn]; omega
    rw [hlen]
    rw [if_neg]
    · rfl
    · simp only [not_or]
      refine ⟨by omega, by omega, by omega, hk2, hk8⟩
  by_cases h : f.payload.length ≤ 125
  · rw [lenPart_short _ h]
    have hb : (UInt8.ofNat (128 + f.payload.length)).toNat = 128 + f.payload.length := by
      rw [UInt8.toNat_ofNat']; exact Nat.mod_eq_of_lt (by omega)
    refine tail _ [] 0 _ rfl rfl ?_ ?_ ?_ (by simp) (by simp)
    · rw [hb, if_pos (by omega)]
    · rw [hb, if_pos (by omega)]; omega
    · rw [hb]; omega
  · by_cases h2 : f.payload.length < 65536
    · rw [lenPart_mid _ h h2]
      refine tail _ (be 2 _) 2 _ (be_length _ _) rfl ?_ ?_ ?_ (by omega) (by omega)
      · rfl
      · rw [if_neg (by decide), be_foldl, Nat.zero_mul, Nat.zero_add]
        exact Nat.mod_eq_of_lt h2
      · decide
    · rw [lenPart_long _ h h2]
      refine tail _ (be 8 _) 8 _ (be_length _ _) rfl ?_ ?_ ?_ (by omega) (by omega)
      · rfl
      · rw [if_neg (by decide), be_foldl, Nat.zero_mul, Nat.zero_add]
        exact Nat.mod_eq_of_lt (Nat.lt_of_lt_of_le hn (by decide))
      · decide

/-! ### Reading -/

/-- The header of a frame of a server. -/
def head (f : Frame) : List UInt8 := first f :: lenPart 0 f.payload.length

theorem bytes_head (f : Frame) : f.bytes none = head f ++ f.payload := by rw [bytes_none]; rfl

theorem head_len (f : Frame) : 2 ≤ (head f).length := by
  unfold head
  by_cases h : f.payload.length ≤ 125
  · simp [lenPart_short _ h]
  · by_cases h2 : f.payload.length < 65536
    · simp [lenPart_mid _ h h2]
    · simp [lenPart_long _ h h2]

theorem op_read (f : Frame) : first f &&& 0x0f = UInt8.ofNat f.op.code := by
  unfold first
  cases f.fin <;> cases f.op <;> rfl
theorem fin_read (f : Frame) : ((first f >>> 7) &&& 1 != 0) = f.fin := by
  unfold first
  cases f.fin <;> cases f.op <;> rfl
theorem len_read : ∀ n : Fin 126, UInt8.ofNat (0 + n.val) &&& 0x7f = UInt8.ofNat n.val ∧ (UInt8.ofNat (0 + n.val) &&& 0x80 != 0) = false ∧ UInt8.ofNat n.val ≤ 125 := by
  decide +kernel

theorem lenOf_eight {n : Nat} (h : n < 2 ^ 63) : lenOf true (be 8 n) = n := by
  have e : be 8 n = UInt8.ofNat (n / 256 ^ 7) :: be 7 n := rfl
  have hb : n / 256 ^ 7 < 128 := by
    rw [Nat.div_lt_iff_lt_mul (by decide)]
    exact h
  rw [e]
  simp only [lenOf, if_true]
  have hand : ∀ m : Fin 128, (UInt8.ofNat m.val &&& 0x7f).toNat = m.val := by decide +kernel
  rw [hand ⟨n / 256 ^ 7, hb⟩, be_foldl]
  have := Nat.div_add_mod n (256 ^ 7)
  rw [Nat.mul_comm] at this
  exact this

theorem lenOf_two {n : Nat} (h : n < 65536) : lenOf false (be 2 n) = n := by
  have e : be 2 n = UInt8.ofNat (n / 256 ^ 1) :: be 1 n := rfl
  rw [e]
  simp only [lenOf, Bool.false_eq_true, if_false]
  rw [be_foldl, UInt8.toNat_ofNat']
  simp
  omega

/-- The reader gets the header, whatever follows. -/
theorem readHeader_head (f : Frame) (x : List UInt8) (hn : f.payload.length < 2 ^ 63) :
    readHeader (head f ++ x) = some (⟨f.fin, UInt8.ofNat f.op.code, f.payload.length, false⟩, x) := by
  unfold head
  by_cases h : f.payload.length ≤ 125
  · rw [lenPart_short _ h]
    obtain ⟨l1, l2, l3⟩ := len_read ⟨f.payload.length, by omega⟩
    simp only at l1 l2 l3
    have hb : (UInt8.ofNat f.payload.length).toNat = f.payload.length := by
      rw [UInt8.toNat_ofNat']; exact Nat.mod_eq_of_lt (by omega)
    simp only [List.cons_append, List.nil_append, readHeader, l1, l2, l3, if_true, op_read, fin_read, hb]
    simp
  · by_cases h2 : f.payload.length < 65536
    · rw [lenPart_mid _ h h2]
      have c1 : UInt8.ofNat (0 + 126) &&& 0x7f = 126 := rfl
      have c2 : (UInt8.ofNat (0 + 126) &&& 0x80 != 0) = false := rfl
      have c3 : ¬ ((126 : UInt8) ≤ 125) := by decide
      have ht : (be 2 f.payload.length ++ x).take 2 = be 2 f.payload.length := by
        rw [List.take_append_of_le_length (by simp [be_length]), List.take_of_length_le (by simp [be_length])]
      have hd : (be 2 f.payload.length ++ x).drop 2 = x := by
        rw [List.drop_append, be_length]
        simp [List.drop_of_length_le, be_length]
      simp only [List.cons_append, readHeader, c1, c2, c3, if_false, if_true, op_read, fin_read, ht, hd]
      rw [if_neg (by simp [be_length])]
      have : ((2 : Nat) == 8) = false := rfl
      simp [this, lenOf_two h2]
    · rw [lenPart_long _ h h2]
      have c1 : UInt8.ofNat (0 + 127) &&& 0x7f = 127 := rfl
      have c2 : (UInt8.ofNat (0 + 127) &&& 0x80 != 0) = false := rfl
      have c3 : ¬ ((127 : UInt8) ≤ 125) := by decide
      have c4 : ¬ ((127 : UInt8) = 126) := by decide
      have ht : (be 8 f.payload.length ++ x).take 8 = be 8 f.payload.length := by
        rw [List.take_append_of_le_length (by simp [be_length]), List.take_of_length_le (by simp [be_length])]
      have hd : (be 8 f.payload.length ++ x).drop 8 = x := by
        rw [List.drop_append, be_length]
        simp [List.drop_of_length_le, be_length]
      simp only [List.cons_append, readHeader, c1, c2, c3, c4, if_false, op_read, fin_read, ht, hd]
      rw [if_neg (by simp [be_length])]
      have : ((8 : Nat) == 8) = true := rfl
      simp [this, lenOf_eight hn]

/-- A header that is cut off. -/
theorem readHeader_cut (f : Frame) (m : Nat) (hm : m < (head f).length) : readHeader ((head f).take m) = none := by
  unfold head at *
  match m with
  | 0 => rfl
  | 1 => rfl
  | m + 2 =>
    by_cases h : f.payload.length ≤ 125
    · rw [lenPart_short _ h] at hm
      simp only [List.length_cons, List.length_nil] at hm
      omega
    · by_cases h2 : f.payload.length < 65536
      · rw [lenPart_mid _ h h2] at hm ⊢
        simp only [List.length_cons, be_length] at hm
        have c1 : UInt8.ofNat (0 + 126) &&& 0x7f = 126 := rfl
        have c3 : ¬ ((126 : UInt8) ≤ 125) := by decide
        simp only [List.take_succ_cons, readHeader, c1, c3, if_false, if_true]
        rw [if_pos (by simp [be_length]; omega)]
      · rw [lenPart_long _ h h2] at hm ⊢
        simp only [List.length_cons, be_length] at hm
        have c1 : UInt8.ofNat (0 + 127) &&& 0x7f = 127 := rfl
        have c3 : ¬ ((127 : UInt8) ≤ 125) := by decide
        have c4 : ¬ ((127 : UInt8) = 126) := by decide
        simp only [List.take_succ_cons, readHeader, c1, c3, c4, if_false]
        rw [if_pos (by simp [be_length]; omega)]

theorem readHeader_less {bs r : List UInt8} {h : Header} (hr : readHeader bs = some (h, r)) : r.length + 2 ≤ bs.length := by
  match bs with
  | [] => cases hr
  | [_] => cases hr
  | b0 :: b1 :: bs =>
    simp only [readHeader] at hr
    generalize (if b1 &&& 0x7f ≤ 125 then 0 else if b1 &&& 0x7f = 126 then 2 else 8) = k at hr
    generalize (if b1 &&& 0x7f ≤ 125 then (b1 &&& 0x7f).toNat else lenOf (k == 8) (List.take k bs)) = n at hr
    by_cases h1 : bs.length < k
    · rw [if_pos h1] at hr; cases hr
    · rw [if_neg h1] at hr
      by_cases h2 : (b1 &&& 0x80 != 0) = true
      · rw [if_pos h2] at hr
        by_cases h3 : (bs.drop k).length < 4
        · rw [if_pos h3] at hr; cases hr
        · rw [if_neg h3] at hr
          cases hr
          simp only [List.length_drop, List.length_cons] at h3 ⊢
          omega
      · rw [if_neg h2] at hr
        cases hr
        simp

theorem loop_fuel (e : Ending) : ∀ (n m : Nat) (bs : List UInt8), bs.length < n → bs.length < m → loop e n bs = loop e m bs := by
  intro n
  induction n with
  | zero => intro m bs h; omega
  | succ n ih =>
    intro m bs hn hm
    match m with
    | 0 => omega
    | m + 1 =>
      simp only [loop]
      cases hr : readHeader bs with
      | none => rfl
      | some p =>
        obtain ⟨h, r⟩ := p
        have hl := readHeader_less hr
        have e := ih m (r.drop h.length) (by simp; omega) (by simp; omega)
        simp only [e]

/-- One step of the reader. -/
theorem reader_step (e : Ending) {bs r : List UInt8} {h : Header} (hr : readHeader bs = some (h, r)) :
    reader e bs =
      if h.masked then (stop .eof).write (8, [0x03, 0xea])
      else if h.op = 8 then stop .eof
      else if h.op = 9 ∨ h.op = 10 then
        if e = .error ∧ r.length < h.length ∧ r.length < 125 then stop .conn
        else if h.op = 9 then (reader e (r.drop h.length)).write (10, (r.take h.length).take 125)
        else reader e (r.drop h.length)
      else if maxPayload < h.length then stop .tooLarge
      else if e = .error ∧ r.length < h.length then stop .conn
      else (reader e (r.drop h.length)).deliver (r.take h.length) := by
  have hl := readHeader_less hr
  have hf : loop e bs.length (r.drop h.length) = reader e (r.drop h.length) :=
    loop_fuel e _ _ _ (by simp; omega) (by simp)
  conv_lhs => unfold reader
  simp only [loop, hr, hf]

theorem reader_end (e : Ending) {bs : List UInt8} (hr : readHeader bs = none) : reader e bs = stop e.err := by
  unfold reader
  simp only [loop, hr]

/-- One whole frame. -/
def after (f : Frame) (o : Out) : Out :=
  match f.op with
  | .close => stop .eof
  | .ping => o.write (10, f.payload)
  | .pong => o
  | _ => o.deliver f.payload

theorem reader_frame (e : Ending) (f : Frame) (x : List UInt8) (hc : f.op.control = true → f.payload.length ≤ 125)
    (hd : f.op.control = false → f.payload.length ≤ maxPayload) : reader e (f.bytes none ++ x) = after f (reader e x) := by
  have hn : f.payload.length < 2 ^ 63 := by
    unfold maxPayload at hd
    cases h : f.op.control
    · have := hd h; omega
    · have := hc h; omega
  rw [bytes_head, List.append_assoc]
  rw [reader_step e (readHeader_head f (f.payload ++ x) hn)]
  have ht : (f.payload ++ x).take f.payload.length = f.payload := List.take_left
  have hdr : (f.payload ++ x).drop f.payload.length = x := List.drop_left
  have hlt : ¬ ((f.payload ++ x).length < f.payload.length) := by simp
  simp only [ht, hdr, hlt, Bool.false_eq_true, if_false, false_and, and_false]
  unfold after
  cases hop : f.op
  case close => rfl
  case ping =>
    have h125 : f.payload.take 125 = f.payload := List.take_of_length_le (hc (by rw [hop]; rfl))
    rw [h125]; rfl
  case pong => rfl
  all_goals
    have := hd (by rw [hop]; rfl)
    have h' : ¬ (maxPayload < f.payload.length) := by omega
    simp only [h', if_false]
    rfl

/-- Frames before the first close frame. -/
def upTo : List Frame → List Frame
  | [] => []
  | f :: fs => if f.op = .close then [] else f :: upTo fs
def datas : List Frame → List (List UInt8)
  | [] => []
  | f :: fs => match f.op with | .close => [] | .ping | .pong => datas fs | _ => f.payload :: datas fs

/-- Is there a close frame? -/
def closes (fs : List Frame) : Bool := fs.any fun f => f.op = .close

theorem reader_frames (e : Ending) (fs : List Frame) (x : List UInt8) (h : ∀ f ∈ fs, (f.op.control = true → f.payload.length ≤ 125) ∧
    (f.op.control = false → f.payload.length ≤ maxPayload)) :
    reader e (stream fs ++ x) =
      let o := if closes fs then stop .eof else reader e x
      ⟨datas fs ++ o.delivered, (pings fs).map (fun p => (10, p)) ++ o.written, o.err⟩ := by
  induction fs with
  | nil => simp [stream, closes, datas, pings]
  | cons f fs ih =>
    have ih := ih (fun g hg => h g (by simp [hg]))
    have hs : stream (f :: fs) ++ x = f.bytes none ++ (stream fs ++ x) := by simp [stream]
    rw [hs, reader_frame e f _ (h f (by simp)).1 (h f (by simp)).2, ih]
    unfold after
    cases hop : f.op <;> simp [closes, datas, pings, hop, Out.write, Out.deliver, stop]

/-- The connection ends within a frame. -/
theorem reader_cut (e : Ending) (f : Frame) (m : Nat) (hm : m < (f.bytes none).length) (hc : f.op.control = true → f.payload.length ≤ 125)
    (hd : f.op.control = false → f.payload.length ≤ maxPayload) :
    (reader e ((f.bytes none).take m)).delivered =
      if e = .eof ∧ f.op.control = false ∧ (head f).length ≤ m then [f.payload.take (m - (head f).length)] else [] := by
  have hn : f.payload.length < 2 ^ 63 := by
    unfold maxPayload at hd
    cases h : f.op.control
    · have := hd h; omega
    · have := hc h; omega
  rw [bytes_head] at hm ⊢
  rw [List.length_append] at hm
  by_cases hh : (head f).length ≤ m
  · have e1 : (head f ++ f.payload).take m = head f ++ f.payload.take (m - (head f).length) := by
      rw [List.take_append, List.take_of_length_le hh]
    rw [e1, reader_step e (readHeader_head f _ hn)]
    have hl : (f.payload.take (m - (head f).length)).length < f.payload.length := by simp; omega
    have hdr : (f.payload.take (m - (head f).length)).drop f.payload.length = [] := List.drop_of_length_le (by omega)
    have htk : (f.payload.take (m - (head f).length)).take f.payload.length = f.payload.take (m - (head f).length) := List.take_of_length_le (by omega)
    have hnil : reader e [] = stop e.err := reader_end e rfl
    simp only [hdr, htk, hnil, Bool.false_eq_true, if_false, hl]
    cases hop : f.op
    case close => simp [stop, Op.control, Op.code]
    case ping =>
      have : f.payload.length ≤ 125 := hc (by rw [hop]; rfl)
      have h125 : (f.payload.take (m - (head f).length)).length < 125 := by omega
      rw [List.length_take] at h125
      cases e <;> simp [stop, Op.control, Op.code, Out.write, h125]
    case pong =>
      have : f.payload.length ≤ 125 := hc (by rw [hop]; rfl)
      have h125 : (f.payload.take (m - (head f).length)).length < 125 := by omega
      rw [List.length_take] at h125
      cases e <;> simp [stop, Op.control, Op.code, h125]
    all_goals
      have h' : ¬ (maxPayload < f.payload.length) := by have := hd (by rw [hop]; rfl); omega
      cases e <;> simp [stop, Op.control, Op.code, Out.deliver, h', hh]
  · have e1 : (head f ++ f.payload).take m = (head f).take m := List.take_append_of_le_length (by omega)
    rw [e1, reader_end e (readHeader_cut f m (by omega)), if_neg (by simp [hh])]
    rfl

/-! ### A stream that is cut off -/

/-- Frames up to some place, and a part of the next one. -/
theorem stream_take (fs : List Frame) (m : Nat) :
    (stream fs).take m = stream fs ∨ ∃ (a b : List Frame) (f : Frame) (k : Nat), fs = a ++ f :: b ∧ k < (f.bytes none).length ∧
      (stream fs).take m = stream a ++ (f.bytes none).take k := by
  induction fs generalizing m with
  | nil => left; simp [stream]
  | cons f fs ih =>
    have hs : stream (f :: fs) = f.bytes none ++ stream fs := by simp [stream]
    by_cases h : m < (f.bytes none).length
    · right
      refine ⟨[], fs, f, m, rfl, h, ?_⟩
      rw [hs, List.take_append_of_le_length (by omega)]
      rfl
    · have e : (stream (f :: fs)).take m = f.bytes none ++ (stream fs).take (m - (f.bytes none).length) := by
        rw [hs, List.take_append, List.take_of_length_le (by omega)]
      rcases ih (m - (f.bytes none).length) with h1 | ⟨a, b, g, k, h1, h2, h3⟩
      · left; rw [e, h1, hs]
      · right
        refine ⟨f :: a, b, g, k, by rw [h1]; rfl, h2, ?_⟩
        rw [e, h3]
        simp [stream]

theorem datas_append (a b : List Frame) : datas (a ++ b) = datas a ++ if closes a then [] else datas b := by
  induction a with
  | nil => simp [datas, closes]
  | cons f a ih =>
    cases hop : f.op <;> simp [datas, closes, hop] <;> simpa [closes] using ih

/-! ### Any bytes -/

/-- What holds for whatever the server sends. -/
structure Tame (n : Nat) (o : Out) : Prop where
  count : 2 * o.delivered.length ≤ n
  total : (o.delivered.map List.length).sum ≤ n
  each : ∀ d ∈ o.delivered, d.length ≤ maxPayload
  pongs : ∀ w ∈ o.written, w.2.length ≤ 125 ∧ (w.1 = 10 ∨ w.1 = 8)
  last : ∃ l, o.written = l ++ [(8, [0x03, 0xe8])] ∧ ∀ w ∈ l, w.1 = 10 ∨ w = (8, [0x03, 0xea])

theorem tame_stop (n : Nat) (e : Err) : Tame n (stop e) :=
  ⟨by simp [stop], by simp [stop], by simp [stop], by simp [stop], [], rfl, by simp⟩

theorem tame_loop (e : Ending) : ∀ (fuel : Nat) (bs : List UInt8), Tame bs.length (loop e fuel bs) := by
  intro fuel
  induction fuel with
  | zero => intro bs; exact tame_stop _ _
  | succ fuel ih =>
    intro bs
    simp only [loop]
    cases hr : readHeader bs with
    | none => exact tame_stop _ _
    | some p =>
      obtain ⟨h, r⟩ := p
      have hl := readHeader_less hr
      have ih := ih (r.drop h.length)
      rw [List.length_drop] at ih
      simp only
      split
      · exact ⟨by simp [stop, Out.write], by simp [stop, Out.write], by simp [stop, Out.write], by simp [stop, Out.write], [(8, [0x03, 0xea])], rfl, by simp⟩
      · split
        · exact tame_stop _ _
        · split
          · split
            · exact tame_stop _ _
            · split
              · obtain ⟨i1, i2, i3, i4, l, i5, i6⟩ := ih
                refine ⟨by simp only [Out.write]; omega, by simp only [Out.write]; omega, i3, ?_, (10, (r.take h.length).take 125) :: l, ?_, ?_⟩
                · intro w hw
                  rcases List.mem_cons.1 hw with rfl | hw
                  · exact ⟨by simp; omega, .inl rfl⟩
                  · exact i4 w hw
                · simp only [Out.write, i5, List.cons_append]
                · intro w hw
                  rcases List.mem_cons.1 hw with rfl | hw
                  · exact .inl rfl
                  · exact i6 w hw
              · obtain ⟨i1, i2, i3, i4, i5⟩ := ih
                exact ⟨by omega, by omega, i3, i4, i5⟩
          · split
            · exact tame_stop _ _
            · rename_i hmax
              split
              · exact tame_stop _ _
              · obtain ⟨i1, i2, i3, i4, i5⟩ := ih
                have ht : (r.take h.length).length ≤ r.length ∧ (r.take h.length).length ≤ h.length := by rw [List.length_take]; omega
                refine ⟨by simp only [Out.deliver, List.length_cons]; omega, ?_, ?_, i4, i5⟩
                · simp only [Out.deliver, List.map_cons, List.sum_cons, List.length_take]
                  omega
                · intro d hd
                  rcases List.mem_cons.1 hd with rfl | hd
                  · omega
                  · exact i3 d hd

end Gofer.WsWire
