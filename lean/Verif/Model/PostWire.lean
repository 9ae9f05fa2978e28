import Verif.Model.Post
/-!
# Requests of `httpclient/post.go` on the wire

What `net/http` (Go 1.23) writes to the connection for a request of `Model/Post`: `persistConn.roundTrip`, `Request.write`,
`transferWriter.writeHeader`, `Header.writeSubset`. HTTP/1.1 only, which is what is spoken for `http:` and after `https:` in lower case (a
`tls.Config` was set, httpclient/post.go:28-30); over `HTTPS:` a server may choose HTTP/2, which is not modelled. The name of the host, the
request URI and the credentials of the URL are given as the library takes them from the URL. A header `Expect` has no effect on the bytes
(no timeout is set).
-/
namespace Gofer.PostWire
open Gofer.Post

/-- `"Host"` -/
def hostKey : Str := [72, 111, 115, 116]
/-- `"User-Agent"` -/
def userAgentKey : Str := [85, 115, 101, 114, 45, 65, 103, 101, 110, 116]
/-- `"Content-Length"` -/
def contentLengthKey : Str := [67, 111, 110, 116, 101, 110, 116, 45, 76, 101, 110, 103, 116, 104]
/-- `"Transfer-Encoding"` -/
def transferEncodingKey : Str := [84, 114, 97, 110, 115, 102, 101, 114, 45, 69, 110, 99, 111, 100, 105, 110, 103]
/-- `"Trailer"` -/
def trailerKey : Str := [84, 114, 97, 105, 108, 101, 114]
/-- `"Connection"` -/
def connectionKey : Str := [67, 111, 110, 110, 101, 99, 116, 105, 111, 110]
/-- `"Accept-Encoding"` -/
def acceptEncodingKey : Str := [65, 99, 99, 101, 112, 116, 45, 69, 110, 99, 111, 100, 105, 110, 103]
/-- `"Range"` -/
def rangeKey : Str := [82, 97, 110, 103, 101]
/-- `"Upgrade"` -/
def upgradeKey : Str := [85, 112, 103, 114, 97, 100, 101]
/-- `"Authorization"` -/
def authorizationKey : Str := [65, 117, 116, 104, 111, 114, 105, 122, 97, 116, 105, 111, 110]
/-- `"Go-http-client/1.1"` -/
def defaultUserAgent : Str := [71, 111, 45, 104, 116, 116, 112, 45, 99, 108, 105, 101, 110, 116, 47, 49, 46, 49]
/-- `"close"` -/
def closeTok : Str := [99, 108, 111, 115, 101]
/-- `"upgrade"` -/
def upgradeTok : Str := [117, 112, 103, 114, 97, 100, 101]
/-- `"gzip"` -/
def gzip : Str := [103, 122, 105, 112]

/-- `TrimString` (library, net/textproto). -/
def isSpace (b : UInt8) : Bool := b == 32 || b == 9 || b == 10 || b == 13

/-- `TrimString` (library, net/textproto). -/
def trimString (v : Str) : Str := ((v.dropWhile isSpace).reverse.dropWhile isSpace).reverse

/-- `isTokenBoundary` (library). -/
def isTokenBoundary (b : UInt8) : Bool := b == 32 || b == 44 || b == 9

/-- `hasToken` (library) from the position on before which `prev` stands. -/
def hasTokenFrom (tok : Str) : Option UInt8 → Str → Bool
  | _, [] => false
  | prev, b :: r =>
    ((prev.all isTokenBoundary) && (((b :: r).take tok.length).map lower == tok) && (((b :: r).drop tok.length).head?.all isTokenBoundary)) ||
      hasTokenFrom tok (some b) r

/-- The parts of a value between commas. -/
def commaParts : Str → List Str
  | [] => [[]]
  | b :: r =>
    match commaParts r with
    | [] => [[b]]
    | p :: ps => if b = 44 then [] :: p :: ps else (b :: p) :: ps

/-- `HeaderValuesContainsToken` (library, httpguts) of one value. -/
def containsToken (tok v : Str) : Bool := (commaParts v).any fun p => (trimString p).map lower == tok

/-- `Header.Get` (library). -/
def getStr (h : Header) (k : Str) : Str := (h.get k).getD []

/-- `Request.wantsClose` (library). -/
def wantsClose (close : Bool) (h : Header) : Bool := close || hasTokenFrom closeTok none (getStr h connectionKey)

/-- `isProtocolSwitchHeader` (library). -/
def isProtocolSwitch (h : Header) : Bool := getStr h upgradeKey != [] && containsToken upgradeTok (getStr h connectionKey)

/-- The credentials of the URL (library, `send` in client.go): set unless there is such a header already. -/
def withAuth (auth : Option Str) (h : Header) : Header :=
  match auth with
  | none => h
  | some a => if getStr h authorizationKey = [] then h.set authorizationKey a else h

/-- `reqWriteExcludeHeader` (library): headers that are not written from the map. -/
def excluded (k : Str) : Bool := [hostKey, userAgentKey, contentLengthKey, transferEncodingKey, trailerKey].contains k

/-- Order of names (library, `sortedKeyValues`). -/
def leName : Str → Str → Bool
  | [], _ => true
  | _ :: _, [] => false
  | a :: r, b :: s => a < b || (a == b && leName r s)

/-- Puts an entry at its place. -/
def insertBy (x : Str × Str) : List (Str × Str) → List (Str × Str)
  | [] => [x]
  | y :: r => if leName x.1 y.1 then x :: y :: r else y :: insertBy x r

/-- Entries sorted by names. -/
def sortBy : List (Str × Str) → List (Str × Str)
  | [] => []
  | x :: r => insertBy x (sortBy r)

/-- `Header.writeSubset` (library). -/
def subset (h : Header) : List (Str × Str) :=
  (sortBy (h.filter fun x => !excluded x.1)).map fun x => (x.1, trimString x.2)

/-- Decimal digits of a number (library, `strconv`), at most `n` of them. -/
def digitsFrom : Nat → Nat → Str
  | 0, _ => []
  | n + 1, i => if i < 10 then [UInt8.ofNat (48 + i)] else digitsFrom n (i / 10) ++ [UInt8.ofNat (48 + i % 10)]

/-- `strconv.FormatInt` (library). -/
def digits (i : Nat) : Str := digitsFrom (i + 1) i

/-- The field `User-Agent` (library, `Request.write`). -/
def userAgent (h : Header) : List (Str × Str) :=
  let ua := match h.get userAgentKey with
    | some v => v
    | none => defaultUserAgent
  if ua ≠ [] then [(userAgentKey, trimString ua)] else []

/-- `transferWriter.writeHeader` (library). -/
def transfer (close : Bool) (s : Sent) (h : Header) : List (Str × Str) :=
  (if close && !hasTokenFrom closeTok none (getStr h connectionKey) then [(connectionKey, closeTok)] else []) ++
    (if 0 < (s.body.getD []).length ∨ s.post = true then [(contentLengthKey, digits (s.body.getD []).length)] else [])

/-- `persistConn.roundTrip` (library): headers that the transport adds; keep-alive is off (httpclient/post.go:27). -/
def extra (close : Bool) (h : Header) : List (Str × Str) :=
  (if getStr h acceptEncodingKey = [] ∧ getStr h rangeKey = [] then [(acceptEncodingKey, gzip)] else []) ++
    (if !wantsClose close h && !isProtocolSwitch h then [(connectionKey, closeTok)] else [])

/-- All header fields in the order in which they are written (library, `Request.write`). -/
def wireFields (host : Str) (auth : Option Str) (close : Bool) (s : Sent) : List (Str × Str) :=
  let h := withAuth auth s.header
  [(hostKey, host)] ++ userAgent h ++ transfer close s h ++ subset h ++ extra close h

/-- `ValidHostHeader` (library, httpguts). -/
def validHost (b : UInt8) : Bool :=
  (48 ≤ b && b ≤ 57) || (65 ≤ b && b ≤ 90) || (97 ≤ b && b ≤ 122) ||
    [33, 36, 37, 38, 40, 41, 42, 43, 44, 45, 46, 58, 59, 61, 91, 39, 93, 95, 126].contains b

/-- `stringContainsCTLByte` (library). -/
def hasCtl (s : Str) : Bool := s.any fun b => b < 32 || b == 127

/-- A field as it is written (library, `Header.writeSubset`). -/
def fieldBytes (f : Str × Str) : Str := f.1 ++ [58, 32] ++ f.2 ++ [13, 10]

/-- `"POST "` or `"GET "`, the request URI, `" HTTP/1.1"` (library, `Request.write`). -/
def requestLine (post : Bool) (uri : Str) : Str :=
  (if post then [80, 79, 83, 84, 32] else [71, 69, 84, 32]) ++ uri ++ [32, 72, 84, 84, 80, 47, 49, 46, 49]

/-- `Request.write` (library): the bytes of a request, or nothing if the host or the URI cannot be written. -/
def wire (host uri : Str) (auth : Option Str) (close : Bool) (s : Sent) : Option Str :=
  if host.all validHost = false ∨ hasCtl uri = true then none
  else some (requestLine s.post uri ++ [13, 10] ++ (wireFields host auth close s).flatMap fieldBytes ++ [13, 10] ++ s.body.getD [])

end Gofer.PostWire
