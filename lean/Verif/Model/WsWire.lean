import Verif.Spec.WsWire
/-!
# What a `Handler` of websocket/wshandle.go writes to and reads from its connection

`sendws` calls `wss.Message.Send` (websocket/wshandle.go:90-94), `read` calls `wss.Message.Receive` (websocket/wshandle.go:115-134). The
library is `golang.org/x/net/websocket`, version 13 of the protocol ("hybi"); its source is not in /repo, it is modelled after
`hybi.go` (`hybiFrameWriter.Write`, `hybiFrameReaderFactory.NewFrameReader`, `hybiFrameHandler.HandleFrame`) and `websocket.go`
(`Codec.Send`, `Codec.Receive`, `Conn.Close`).

Simplified: the handshake is over; writes to the connection do not fail; the connection delivers bytes and then ends, either in an
orderly way (`io.EOF`) or with an error; nobody calls `Close` meanwhile (for that see `Model/Websocket.lean`), and `OnMessage` is set.
-/
namespace Gofer.WsWire
open Gofer.Spec.WsWire

/-! ### Writing -/

/-- `b = byte((length >> j) & 0xff)` for the length fields (`hybiFrameWriter.Write`, called from websocket/wshandle.go:93). -/
def lenFields (fields length : Nat) : List UInt8 := (List.range fields).map fun i => UInt8.ofNat ((length >>> ((fields - i - 1) * 8)) &&& 0xff)

/-- `hybiFrameWriter.Write` for a frame with `Fin`, opcode `op`, masked with `key` (called from websocket/wshandle.go:93 through
`Codec.Send`, from `WritePong` and `WriteClose`). -/
def frame (op : UInt8) (key msg : List UInt8) : List UInt8 :=
  let b0 : UInt8 := 0x80 ||| op
  let length := msg.length
  let b1 : UInt8 := if length ≤ 125 then 0x80 ||| UInt8.ofNat length else if length < 65536 then 0x80 ||| 126 else 0x80 ||| 127
  let fields := if length ≤ 125 then 0 else if length < 65536 then 2 else 8
  [b0, b1] ++ lenFields fields length ++ key ++ msg.mapIdx fun i b => b ^^^ key.getD (i % 4) 0

/-- `wss.Message.Send(conn, bs)` (websocket/wshandle.go:93): a `[]byte` becomes a binary frame, the masking key is four random bytes. -/
def send (key bs : List UInt8) : List UInt8 := frame 2 key bs

/-! ### Reading -/

/-- `hybiFrameHeader`. -/
structure Header where
  fin : Bool
  op : UInt8
  length : Nat
  masked : Bool
deriving DecidableEq, Repr

/-- `for i := 0; i < lengthFields; i++ { … Length = Length*256 + int64(b) }`; the first of eight bytes without its highest bit
(`NewFrameReader`, called from websocket/wshandle.go:119). -/
def lenOf (eight : Bool) (bs : List UInt8) : Nat :=
  match bs with
  | [] => 0
  | b :: bs => bs.foldl (fun a c => a * 256 + c.toNat) (if eight then (b &&& 0x7f).toNat else b.toNat)

/-- `NewFrameReader` (called from websocket/wshandle.go:119): the header off the front of the bytes; `none` if the connection ends
before. -/
def readHeader (bs : List UInt8) : Option (Header × List UInt8) :=
  match bs with
  | b0 :: b1 :: r =>
    let b := b1 &&& 0x7f
    let fields := if b ≤ 125 then 0 else if b = 126 then 2 else 8
    if r.length < fields then none
    else
      let length := if b ≤ 125 then b.toNat else lenOf (fields == 8) (r.take fields)
      let r1 := r.drop fields
      let masked := b1 &&& 0x80 != 0
      if masked then
        if r1.length < 4 then none else some (⟨(b0 >>> 7) &&& 1 != 0, b0 &&& 0x0f, length, true⟩, r1.drop 4)
      else some (⟨(b0 >>> 7) &&& 1 != 0, b0 &&& 0x0f, length, false⟩, r1)
  | _ => none

/-- How the connection ends after the last byte. -/
inductive Ending where
  | eof
  | error
deriving DecidableEq, Repr

/-- The error `read` ends with (websocket/wshandle.go:119-121). -/
inductive Err where
  | eof
  | conn
  | tooLarge
deriving DecidableEq, Repr

/-- What becomes of a connection: the messages given to `OnMessage`, in the order received (websocket/wshandle.go:123-125), the frames
written (opcode and payload), the error. -/
structure Out where
  delivered : List (List UInt8)
  written : List (UInt8 × List UInt8)
  err : Err
deriving DecidableEq, Repr

def Out.deliver (m : List UInt8) (o : Out) : Out := { o with delivered := m :: o.delivered }
def Out.write (w : UInt8 × List UInt8) (o : Out) : Out := { o with written := w :: o.written }

/-- `DefaultMaxPayloadBytes`, 32 MB; the field `MaxPayloadBytes` of the connection is not set (websocket/wshandle.go:75-81). -/
def maxPayload : Nat := 32 * 2 ^ 20

def Ending.err : Ending → Err
  | .eof => .eof
  | .error => .conn

/-- `wh.Close()` at the end of `read` (websocket/wshandle.go:130): `Conn.Close` writes a close frame with status 1000. -/
def stop (e : Err) : Out := ⟨[], [(8, [0x03, 0xe8])], e⟩

/-- The loop of `read` (websocket/wshandle.go:115-134) with `Codec.Receive` and `HandleFrame`, on the bytes that the connection has, at most
`fuel` frames. -/
def loop (e : Ending) : Nat → List UInt8 → Out
  | 0, _ => stop e.err
  | fuel + 1, bs =>
    match readHeader bs with
    | none => stop e.err
    | some (h, r) =>
      -- "The server MUST NOT mask all frames": close frame with status 1002
      if h.masked then (stop .eof).write (8, [0x03, 0xea])
      else if h.op = 8 then stop .eof
      else if h.op = 9 ∨ h.op = 10 then
        -- `io.ReadFull` of 125 bytes from the frame; an error other than EOF ends it
        let p := (r.take h.length).take 125
        if e = .error ∧ r.length < h.length ∧ r.length < 125 then stop .conn
        else if h.op = 9 then (loop e fuel (r.drop h.length)).write (10, p)
        else loop e fuel (r.drop h.length)
      else if maxPayload < h.length then stop .tooLarge
      -- `io.ReadAll` of a reader limited to the length: the end of the connection is the end of the frame
      else if e = .error ∧ r.length < h.length then stop .conn
      else (loop e fuel (r.drop h.length)).deliver (r.take h.length)

/-- All that becomes of a connection on which the server sends `bs`. -/
def reader (e : Ending) (bs : List UInt8) : Out := loop e (bs.length + 1) bs

end Gofer.WsWire
