/-!
# The frames of RFC 6455

Section 5.2 (base framing), 5.3 (masking), 5.4 (fragmentation), 5.5 (control frames), as far as no extension is agreed on.
-/
namespace Gofer.Spec.WsWire

/-- Kinds of frames (5.2). -/
inductive Op where
  | cont
  | text
  | binary
  | close
  | ping
  | pong
deriving DecidableEq, Repr

/-- The opcode, four bits. -/
def Op.code : Op → Nat
  | .cont => 0
  | .text => 1
  | .binary => 2
  | .close => 8
  | .ping => 9
  | .pong => 10

/-- Control frames (5.5). -/
def Op.control : Op → Bool
  | .close | .ping | .pong => true
  | _ => false

structure Frame where
  /-- the last fragment of a message -/
  fin : Bool
  op : Op
  payload : List UInt8
deriving DecidableEq, Repr

/-- A number as `k` bytes, the highest first. -/
def be : Nat → Nat → List UInt8
  | 0, _ => []
  | k + 1, n => UInt8.ofNat (n / 256 ^ k) :: be k n

/-- The payload under the masking key: byte `i` with byte `i mod 4` of the key (5.3). -/
def mask (key : List UInt8) (p : List UInt8) : List UInt8 := p.mapIdx fun i b => b ^^^ key.getD (i % 4) 0

/-- The bytes of a frame; with a masking key if it goes to the server, without if it comes from there. The length takes 7, 7+16 or 7+64
bits, as few as possible. -/
def Frame.bytes (f : Frame) (key : Option (List UInt8)) : List UInt8 :=
  let m := if key.isSome then 128 else 0
  let n := f.payload.length
  UInt8.ofNat ((if f.fin then 128 else 0) + f.op.code) ::
    ((if n ≤ 125 then [UInt8.ofNat (m + n)] else if n < 65536 then UInt8.ofNat (m + 126) :: be 2 n else UInt8.ofNat (m + 127) :: be 8 n) ++
      (match key with
        | some k => k ++ mask k f.payload
        | none => f.payload))

/-- The bytes of frames one after another, from a server. -/
def stream (fs : List Frame) : List UInt8 := fs.flatMap fun f => f.bytes none

/-- The messages in a sequence of frames (5.4), `acc` being the fragments so far: a message is whole with its last fragment; control
frames may come in between; nothing counts after a close frame. -/
def messages : Option (List UInt8) → List Frame → List (List UInt8)
  | _, [] => []
  | acc, f :: fs =>
    match f.op with
    | .close => []
    | .ping | .pong => messages acc fs
    | .text | .binary => if f.fin then f.payload :: messages none fs else messages (some f.payload) fs
    | .cont => if f.fin then (acc.getD [] ++ f.payload) :: messages none fs else messages (some (acc.getD [] ++ f.payload)) fs

/-- A sequence of frames that a server may send (5.4, 5.5), `open_` telling that a message has begun: control frames are whole and have at
most 125 bytes; a message begins with a text or binary frame and goes on with continuation frames; lengths are below 2^63. -/
def Legal : Bool → List Frame → Prop
  | _, [] => True
  | open_, f :: fs =>
    f.payload.length < 2 ^ 63 ∧
    match f.op with
    | .close | .ping | .pong => f.fin = true ∧ f.payload.length ≤ 125 ∧ Legal open_ fs
    | .text | .binary => open_ = false ∧ Legal (!f.fin) fs
    | .cont => open_ = true ∧ Legal (!f.fin) fs

/-- The payloads of the pings before the first close frame. -/
def pings : List Frame → List (List UInt8)
  | [] => []
  | f :: fs =>
    match f.op with
    | .close => []
    | .ping => f.payload :: pings fs
    | _ => pings fs

/-- The kind of frame to an opcode; `none` if it is reserved. -/
def opOf : Nat → Option Op
  | 0 => some .cont
  | 1 => some .text
  | 2 => some .binary
  | 8 => some .close
  | 9 => some .ping
  | 10 => some .pong
  | _ => none

/-- A receiver (a server): one frame off the front of the bytes. Only what the RFC allows it to accept: no reserved bits, a known opcode,
lengths as short as possible and below 2^63, masked. -/
def parse (bs : List UInt8) : Option (Frame × List UInt8) :=
  match bs with
  | b0 :: b1 :: r =>
    let l := b1.toNat % 128
    let k := if l ≤ 125 then 0 else if l = 126 then 2 else 8
    let n := if l ≤ 125 then l else (r.take k).foldl (fun a b => a * 256 + b.toNat) 0
    let r1 := r.drop k
    let key := r1.take 4
    let r2 := r1.drop 4
    if r.length < k + 4 + n ∨ b1.toNat < 128 ∨ 2 ^ 63 ≤ n ∨ (k = 2 ∧ n ≤ 125) ∨ (k = 8 ∧ n < 65536) then none
    else (opOf (b0.toNat % 128)).map fun o => (⟨decide (128 ≤ b0.toNat), o, mask key (r2.take n)⟩, r2.drop n)
  | _ => none

/-- All frames in the bytes, the last one complete; at most `fuel`. -/
def parseAll : Nat → List UInt8 → Option (List Frame)
  | _, [] => some []
  | 0, _ => none
  | fuel + 1, bs => (parse bs).bind fun p => (parseAll fuel p.2).map (p.1 :: ·)

end Gofer.Spec.WsWire
