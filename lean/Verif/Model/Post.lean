/-!
# Model of `httpclient/post.go`

`Post`, `Post2` and `Post3` are modelled line by line. Of the library `net/http` (Go 1.23) the model has: `Header.Set` with the canonical form
of keys, `AddCookie`, the checks of `Transport.RoundTrip` before a request goes out, the check of certificates, and the redirects of `Client.Do`.
What servers do, how the part of a URL after the scheme is read, how a `Location` is resolved and which headers a redirected request gets
is an arbitrary `Env`. Simplified: bodies of responses are whole byte strings; a cookie is its text `name=value`;
headers that the library adds by itself (`Host`, `Content-Length`, ...) are left out here (see `Model/PostWire`).
-/
namespace Gofer.Post

abbrev Str := List UInt8

/-- A URL: the scheme in lower case, and the rest. -/
structure Url where
  scheme : Str
  rest : Str
deriving DecidableEq, Repr

/-- `http.Header`: a map from canonical keys to values (the code uses `Set` only: one value for a key). -/
abbrev Header := List (Str × Str)

/-- A request as a server gets it. -/
structure Sent where
  post : Bool
  url : Url
  header : Header
  body : Option Str
  /-- the certificate of the server was checked -/
  verified : Bool
deriving DecidableEq, Repr

/-- Body of a response: whole, broken off, or never complete. -/
inductive Body where
  | whole (b : Str)
  | broken
  | never
deriving DecidableEq, Repr

/-- What comes back: nothing for ever, an error of the connection, or a response. -/
inductive Reply where
  | never
  | fail
  | resp (status : Nat) (location : Str) (body : Body)
deriving DecidableEq, Repr

/-- The world: servers (which may know all that was sent before), their certificates, and the functions of the library on URLs. -/
structure Env where
  reply : List Sent → Sent → Reply
  /-- the server named by the rest of a URL has a certificate that is valid for it -/
  trusted : Str → Bool
  /-- the rest of a URL as `url.Parse` reads it -/
  readRest : Str → Option Str
  /-- the rest of a URL names a host -/
  hasHost : Str → Bool
  /-- `URL.Parse` of a `Location` -/
  resolve : Url → Str → Option Url
  /-- the headers of a redirected request -/
  redirectHeader : List Sent → Url → Header
  /-- whether a body left out by one redirect is sent again after a later 307 or 308 (this depends on the release of the library) -/
  bodyAgain : Bool

/-! ## The library -/

/-- `isTokenTable` (library, net/textproto and golang.org/x/net/http/httpguts): characters of header names. -/
def isToken (b : UInt8) : Bool :=
  (48 ≤ b && b ≤ 57) || (65 ≤ b && b ≤ 90) || (97 ≤ b && b ≤ 122) ||
    b == 33 || b == 35 || b == 36 || b == 37 || b == 38 || b == 39 || b == 42 || b == 43 || b == 45 || b == 46 || b == 94 || b == 95 ||
    b == 96 || b == 124 || b == 126

/-- A letter in upper case. -/
def upper (b : UInt8) : UInt8 := if 97 ≤ b && b ≤ 122 then b - 32 else b

/-- A letter in lower case. -/
def lower (b : UInt8) : UInt8 := if 65 ≤ b && b ≤ 90 then b + 32 else b

/-- The loop of `canonicalMIMEHeaderKey` (library): upper case at the beginning and after `-`. -/
def canonLoop : Bool → Str → Str
  | _, [] => []
  | up, b :: r => (if up then upper b else lower b) :: canonLoop (b == 45) r

/-- `CanonicalMIMEHeaderKey` (library): keys with other characters are left as they are. -/
def canon (k : Str) : Str := if k.all isToken then canonLoop true k else k

/-- `Header.Get` (library) of a canonical key; `none` if there is none. -/
def Header.get (h : Header) (k : Str) : Option Str := List.lookup k h

/-- `Header.Set` (library). -/
def Header.set (h : Header) (k v : Str) : Header := (canon k, v) :: h.filter (fun e => e.1 != canon k)

/-- `"Cookie"` -/
def cookieKey : Str := [67, 111, 111, 107, 105, 101]

/-- `Request.AddCookie` (library). -/
def addCookie (h : Header) (c : Str) : Header :=
  match h.get cookieKey with
  | some o => if o ≠ [] then h.set cookieKey (o ++ [59, 32] ++ c) else h.set cookieKey c
  | none => h.set cookieKey c

/-- `ValidHeaderFieldName` (library). -/
def validName (k : Str) : Bool := !k.isEmpty && k.all isToken

/-- `ValidHeaderFieldValue` (library): no control characters but tabs. -/
def validValue (v : Str) : Bool := v.all (fun b => !((b < 32 || b == 127) && !(b == 32 || b == 9)))

/-- `"http"` -/
def http : Str := [104, 116, 116, 112]

/-- `"https"` -/
def https : Str := [104, 116, 116, 112, 115]

/-- `"https:"` -/
def httpsColon : Str := https ++ [58]

/-- Letters. -/
def isAlpha (b : UInt8) : Bool := (65 ≤ b && b ≤ 90) || (97 ≤ b && b ≤ 122)

/-- Digits and `+`, `-`, `.` -/
def isSchemeMore (b : UInt8) : Bool := (48 ≤ b && b ≤ 57) || b == 43 || b == 45 || b == 46

/-- `getScheme` (library, net/url) from position `i > 0` on, `acc` read so far; `none` is an error, `some ([], _)` no scheme. -/
def getSchemeFrom (all acc : Str) : Str → Option (Str × Str)
  | [] => some ([], all)
  | b :: r =>
    if isAlpha b then getSchemeFrom all (acc ++ [b]) r
    else if isSchemeMore b then (if acc = [] then some ([], all) else getSchemeFrom all (acc ++ [b]) r)
    else if b = 58 then (if acc = [] then none else some (acc, r))
    else some ([], all)

/-- `url.Parse` (library) as in `http.NewRequest`. -/
def parseURL (e : Env) (s : Str) : Option Url :=
  match getSchemeFrom s [] s with
  | none => none
  | some (sc, r) =>
    match e.readRest r with
    | none => none
    | some r' => some ⟨sc.map lower, r'⟩

/-- State of a call: what was sent, and how many bodies of responses are open. -/
structure St where
  sent : List Sent
  open_ : Nat
deriving DecidableEq, Repr

/-- `Transport.RoundTrip` (library): the checks, then the request goes out. `insecure` is `InsecureSkipVerify`. -/
def send (e : Env) (insecure : Bool) (st : St) (post : Bool) (u : Url) (h : Header) (body : Option Str) : St × Reply :=
  if u.scheme ≠ http ∧ u.scheme ≠ https then (st, .fail)
  else if !h.all (fun x => validName x.1 && validValue x.2) then (st, .fail)
  else if !e.hasHost u.rest then (st, .fail)
  else if u.scheme = https ∧ insecure = false ∧ e.trusted u.rest = false then (st, .fail)
  else
    let r : Sent := ⟨post, u, h, body, decide (u.scheme = https ∧ insecure = false)⟩
    match e.reply st.sent r with
    | .resp c l b => ({ st with sent := st.sent ++ [r], open_ := st.open_ + 1 }, .resp c l b)
    | x => ({ st with sent := st.sent ++ [r] }, x)

/-- Outcome of `Client.Do`: never, an error, or the response. -/
inductive DoRes where
  | never
  | err
  | resp (status : Nat) (body : Body)
deriving DecidableEq, Repr

/-- The loop of `Client.Do` (library). `first` is the body of the first request, `n` how many requests may still be sent;
`keep`: no redirect has left out the body. A redirect closes the body of the response. -/
def loop (e : Env) (insecure : Bool) (first : Option Str) : Nat → Bool → St → Bool → Url → Header → Option Str → St × DoRes
  | 0, _, st, _, _, _, _ => (st, .err)
  | n + 1, keep, st, post, u, h, body =>
    match send e insecure st post u h body with
    | (st, .never) => (st, .never)
    | (st, .fail) => (st, .err)
    | (st, .resp c l b) =>
      if c = 301 ∨ c = 302 ∨ c = 303 ∨ c = 307 ∨ c = 308 then
        if l = [] then (st, .resp c b)
        else
          match e.resolve u l with
          | none => ({ st with open_ := st.open_ - 1 }, .err)
          | some u' =>
            let same := decide (c = 307 ∨ c = 308)
            let keep' := same && (keep || e.bodyAgain)
            loop e insecure first n keep' { st with open_ := st.open_ - 1 } (post && same) u' (e.redirectHeader st.sent u')
              (if keep' then first else none)
      else (st, .resp c b)

/-! ## post.go -/

/-- Outcome of `Post3`: it does not return, an error (with nil), or the body. -/
inductive Res where
  | never
  | err
  | ok (b : Str)
deriving DecidableEq, Repr

/-- Header of the request (httpclient/post.go:39-46); `header` in the order in which the map is ranged over. -/
def reqHeader (header : List (Str × Str)) (cookie : Option Str) : Header :=
  let h := header.foldl (fun h e => Header.set h e.1 e.2) []
  match cookie with
  | none => h
  | some c => addCookie h c

/-- `Post3` (httpclient/post.go:26-58): state after the call and outcome. The flag `close` has no effect here: keep-alive is off anyhow (its effect on the bytes is in `Model/PostWire`). -/
def post3 (e : Env) (bs : Str) (_close : Bool) (url : Str) (header : List (Str × Str)) (cookie : Option Str) : St × Res :=
  let insecure := httpsColon.isPrefixOf url
  let body := if 0 < bs.length then some bs else none
  match parseURL e url with
  | none => (⟨[], 0⟩, .err)
  | some u =>
    match loop e insecure body 10 true ⟨[], 0⟩ true u (reqHeader header cookie) body with
    | (st, .never) => (st, .never)
    | (st, .err) => (st, .err)
    | (st, .resp _ b) =>
      match b with
      | .never => (st, .never)
      | .broken => ({ st with open_ := st.open_ - 1 }, .err)
      | .whole b => ({ st with open_ := st.open_ - 1 }, .ok b)

/-- `Post2` (httpclient/post.go:22-24). -/
def post2 (e : Env) (bs : Str) (close : Bool) (url : Str) : St × Res := post3 e bs close url [] none

/-- `Post` (httpclient/post.go:18-20). -/
def post (e : Env) (bs : Str) (url : Str) : St × Res := post2 e bs false url

end Gofer.Post
