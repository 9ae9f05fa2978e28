import Verif.Model.Websocket

/-! # What the WebSocket properties speak about: histories of events, last event first -/
namespace Gofer.Websocket

/-- `b` happened after something of the kind `p`. -/
def After (p : Ev → Prop) (b : Ev) (h : List Ev) : Prop := ∃ l2 l1, h = l2 ++ b :: l1 ∧ ∃ a ∈ l1, p a

/-- The connection has ended for the user: a `Close` returned, or the loop of `read` ended. -/
def Ended : Ev → Prop
  | .closeRet _ | .loopEnd => True
  | _ => False

/-- Everything the reading side does. -/
def Reading : Ev → Prop
  | .received _ | .loopEnd | .onMessage _ | .onError _ | .onCloseBegin | .onCloseEnd => True
  | _ => False

/-- Messages taken from the connection and handed to `OnMessage`, in order. -/
def received (h : List Ev) : List Nat := h.reverse.filterMap fun | .received m => some m | _ => none
def delivered (h : List Ev) : List Nat := h.reverse.filterMap fun | .onMessage m => some m | _ => none
/-- The errors handed to `OnError`, in order. -/
def errors (h : List Ev) : List (Option Err) := h.reverse.filterMap fun | .onError e => some e | _ => none

/-- All certificates of a list of PEM blobs, if each of them has some. -/
def pool {Cert : Type} (pem : List UInt8 → Option (List Cert)) (bs : List (List UInt8)) : Option (List Cert) :=
  if ∀ b ∈ bs, (pem b).isSome then some (bs.flatMap fun b => (pem b).getD []) else none

end Gofer.Websocket
