import Verif.Proof.Post
import Verif.Spec.Http
/-!
# Properties of `httpclient/post.go`: C149 to C155
-/
namespace Gofer.Props.Post
open Gofer.Post Gofer.Spec.Http

/-- A world for examples: every server answers with the given status and location and the body `[1]`; certificates as given. -/
def world (reply : List Sent → Sent → Reply) (trusted : Bool) : Env :=
  ⟨reply, fun _ => trusted, some, fun _ => true, fun u l => some ⟨u.scheme, l⟩, fun _ _ => [], false⟩

/-- `https://h` -/
def urlS : Str := [104, 116, 116, 112, 115, 58, 47, 47, 104]

/-- `HTTPS://h` -/
def urlUpper : Str := [72, 84, 84, 80, 83, 58, 47, 47, 104]

/-- `http://h` -/
def urlP : Str := [104, 116, 116, 112, 58, 47, 47, 104]

/-! ## C149: certificates -/

/-- The claim: data goes to a server over TLS only if its certificate is valid. -/
def C149_claim : Prop :=
  ∀ (e : Env) (bs : Str) (close : Bool) (url : Str) (header : List (Str × Str)) (cookie : Option Str),
    ∀ s ∈ (post3 e bs close url header cookie).1.sent, s.url.scheme = https → e.trusted s.url.rest = true

/-- It fails for every URL that begins with `https:`. -/
theorem C149_claim_false : ¬ C149_claim := fun h => by
  have := h (world (fun _ _ => .resp 200 [] (.whole [1])) false) [7] false urlS [] none
    ⟨true, ⟨https, [47, 47, 104]⟩, [], some [7], false⟩ (by decide +kernel) rfl
  cases this

/-- It holds if the URL does not begin with `https:` in lower case: `HTTPS:` or a redirect from `http:`. Partial: with `https:` it does not. -/
theorem C149_checked_partial (e : Env) (bs : Str) (close : Bool) (url : Str) (header : List (Str × Str)) (cookie : Option Str)
    (hu : httpsColon.isPrefixOf url = false) :
    ∀ s ∈ (post3 e bs close url header cookie).1.sent, s.url.scheme = https → s.verified = true ∧ e.trusted s.url.rest = true := by
  intro s hs hh
  have hc : Checked e false s := by
    unfold post3 at hs
    rw [hu] at hs
    dsimp only at hs
    cases hp : parseURL e url with
    | none => rw [hp] at hs; cases hs
    | some u =>
      rw [hp] at hs
      dsimp only at hs
      have hck := loop_checked e false (if 0 < bs.length then some bs else none) 10 true ⟨[], 0⟩ true u (reqHeader header cookie)
        (if 0 < bs.length then some bs else none) (by simp)
      match hl : loop e false (if 0 < bs.length then some bs else none) 10 true ⟨[], 0⟩ true u (reqHeader header cookie)
        (if 0 < bs.length then some bs else none) with
      | (st, .never) => rw [hl] at hs hck; exact hck s hs
      | (st, .err) => rw [hl] at hs hck; exact hck s hs
      | (st, .resp c b) => rw [hl] at hs hck; cases b <;> exact hck s hs
  refine ⟨?_, ?_⟩
  · rw [hc.ver, hh]; simp
  · exact (hc.tls hh).resolve_left (by simp)

/-- With `https:` certificates have no effect on anything: neither on what is sent nor on the outcome. -/
theorem C149_unchecked (e : Env) (t : Str → Bool) (bs : Str) (close : Bool) (url : Str) (header : List (Str × Str)) (cookie : Option Str)
    (hu : httpsColon.isPrefixOf url = true) :
    post3 { e with trusted := t } bs close url header cookie = post3 e bs close url header cookie := by
  unfold post3
  rw [hu]
  have hp : parseURL { e with trusted := t } url = parseURL e url := rfl
  dsimp only
  rw [hp]
  cases parseURL e url with
  | none => rfl
  | some u => dsimp only; rw [loop_insecure]

/-- Upper case: the certificate is checked. -/
example : httpsColon.isPrefixOf urlUpper = false ∧ (post3 (world (fun _ _ => .resp 200 [] (.whole [1])) false) [7] false urlUpper [] none).2 = .err ∧
    (post3 (world (fun _ _ => .resp 200 [] (.whole [1])) true) [7] false urlUpper [] none) =
      (⟨[⟨true, ⟨https, [47, 47, 104]⟩, [], some [7], true⟩], 0⟩, .ok [1]) := by decide +kernel

/-! ## C150: the answer -/

/-- The claim: without error the server reported success. -/
def C150_claim : Prop :=
  ∀ (e : Env) (bs : Str) (close : Bool) (url : Str) (header : List (Str × Str)) (cookie : Option Str) (st : St) (b : Str),
    post3 e bs close url header cookie = (st, .ok b) →
      ∃ pre s c l, st.sent = pre ++ [s] ∧ e.reply pre s = .resp c l (.whole b) ∧ 200 ≤ c ∧ c < 300

/-- It fails: status 500 is no error. -/
theorem C150_claim_false : ¬ C150_claim := fun h => by
  obtain ⟨pre, s, c, l, _, h2, h3, h4⟩ := h (world (fun _ _ => .resp 500 [] (.whole [1])) true) [7] false urlP [] none
    ⟨[⟨true, ⟨http, [47, 47, 104]⟩, [], some [7], false⟩], 0⟩ [1] (by decide +kernel)
  cases h2
  omega

/-- Without error the result is the whole body of the last response, which was no redirect (or named no place). Partial: whatever its status. -/
theorem C150_answer_partial (e : Env) (bs : Str) (close : Bool) (url : Str) (header : List (Str × Str)) (cookie : Option Str) (st : St) (b : Str)
    (h : post3 e bs close url header cookie = (st, .ok b)) :
    ∃ pre s c l, st.sent = pre ++ [s] ∧ e.reply pre s = .resp c l (.whole b) ∧
      ((c = 301 ∨ c = 302 ∨ c = 303 ∨ c = 307 ∨ c = 308) → l = []) := by
  unfold post3 at h
  dsimp only at h
  cases hp : parseURL e url with
  | none => rw [hp] at h; cases h
  | some u =>
    rw [hp] at h
    dsimp only at h
    have hlast := loop_last e (httpsColon.isPrefixOf url) (if 0 < bs.length then some bs else none) 10 true ⟨[], 0⟩ true u (reqHeader header cookie)
        (if 0 < bs.length then some bs else none)
    match hl : loop e (httpsColon.isPrefixOf url) (if 0 < bs.length then some bs else none) 10 true ⟨[], 0⟩ true u (reqHeader header cookie)
        (if 0 < bs.length then some bs else none) with
    | (st', .never) => rw [hl] at h; cases h
    | (st', .err) => rw [hl] at h; cases h
    | (st', .resp c o) =>
      rw [hl] at h hlast
      obtain ⟨pre, s, l, h1, h2, h3⟩ := hlast c o rfl
      cases o with
      | never => cases h
      | broken => cases h
      | whole b' => cases h; exact ⟨pre, s, c, l, h1, h2, h3⟩

/-- A body that breaks off is an error, not a short result. -/
theorem C150_broken (e : Env) (bs : Str) (close : Bool) (url : Str) (header : List (Str × Str)) (cookie : Option Str)
    (hb : ∀ pre s c l b, e.reply pre s ≠ .resp c l (.whole b)) : ∀ b, (post3 e bs close url header cookie).2 ≠ .ok b := by
  intro b h
  obtain ⟨pre, s, c, l, _, h2, _⟩ := C150_answer_partial e bs close url header cookie (post3 e bs close url header cookie).1 b (by rw [← h])
  exact hb pre s c l b h2

example : post3 (world (fun pre _ => if pre.length < 3 then .resp 307 [47] .broken else .resp 200 [] (.whole [1])) true) [7] false urlP [] none =
    (⟨[⟨true, ⟨http, [47, 47, 104]⟩, [], some [7], false⟩, ⟨true, ⟨http, [47]⟩, [], some [7], false⟩, ⟨true, ⟨http, [47]⟩, [], some [7], false⟩,
      ⟨true, ⟨http, [47]⟩, [], some [7], false⟩], 0⟩, .ok [1]) := by decide +kernel

/-! ## C151: headers -/

/-- The claim: the first request has every entry of the map `header`, whose keys are different strings. -/
def C151_claim : Prop :=
  ∀ (e : Env) (bs : Str) (close : Bool) (url : Str) (header : List (Str × Str)) (s : Sent), (header.map (·.1)).Nodup →
    (post3 e bs close url header none).1.sent.head? = some s → ∀ x ∈ header, ∃ k', SameName k' x.1 ∧ (k', x.2) ∈ s.header

/-- It fails for the keys `a` and `A`: the one that the map gives first is lost. -/
theorem C151_claim_false : ¬ C151_claim := fun h => by
  obtain ⟨k', _, h2⟩ := h (world (fun _ _ => .resp 200 [] (.whole [1])) true) [7] false urlP [([97], [1 + 48]), ([65], [2 + 48])]
    ⟨true, ⟨http, [47, 47, 104]⟩, [([65], [2 + 48])], some [7], false⟩ (by decide +kernel) (by decide +kernel) ([97], [1 + 48]) (by simp)
  rw [List.mem_singleton, Prod.mk.injEq] at h2
  exact absurd h2.2 (by decide)

/-- The two orders of the map give different requests. -/
theorem C151_order_witness :
    (post3 (world (fun _ _ => .resp 200 [] (.whole [1])) true) [7] false urlP [([97], [49]), ([65], [50])] none).1.sent.map (·.header) = [[([65], [50])]] ∧
    (post3 (world (fun _ _ => .resp 200 [] (.whole [1])) true) [7] false urlP [([65], [50]), ([97], [49])] none).1.sent.map (·.header) = [[([65], [49])]] := by
  decide +kernel

/-- If names (and `Cookie`, if a cookie is given) differ in more than the case of letters, the first request has exactly the entries of the map
and the cookie, in whatever order the map is ranged over. Partial: not for names that differ in case only. -/
theorem C151_headers_partial (e : Env) (bs : Str) (close : Bool) (url : Str) (header : List (Str × Str)) (cookie : Option Str) (s : Sent)
    (hn : (header ++ (cookie.map (fun c => (cookieKey, c))).toList).Pairwise (fun x y => ¬ SameName x.1 y.1))
    (hs : (post3 e bs close url header cookie).1.sent.head? = some s) :
    (∀ x ∈ header, ∃ k', SameName k' x.1 ∧ (k', x.2) ∈ s.header) ∧ (∀ c, cookie = some c → (cookieKey, c) ∈ s.header) ∧
    (∀ x ∈ s.header, (∃ k, SameName x.1 k ∧ (k, x.2) ∈ header) ∨ (x.1 = cookieKey ∧ cookie = some x.2)) ∧
    s.header.length = header.length + (cookie.map (fun c => (cookieKey, c))).toList.length := by
  have hh : s.header = reqHeader header cookie := by
    unfold post3 at hs
    dsimp only at hs
    cases hp : parseURL e url with
    | none => rw [hp] at hs; cases hs
    | some u =>
      rw [hp] at hs
      dsimp only at hs
      have hf := loop_first e (httpsColon.isPrefixOf url) (if 0 < bs.length then some bs else none) 10 true true u (reqHeader header cookie)
        (if 0 < bs.length then some bs else none) s
      match hl : loop e (httpsColon.isPrefixOf url) (if 0 < bs.length then some bs else none) 10 true ⟨[], 0⟩ true u (reqHeader header cookie)
        (if 0 < bs.length then some bs else none) with
      | (st, .never) => rw [hl] at hs hf; exact (hf hs).2.2.1
      | (st, .err) => rw [hl] at hs hf; exact (hf hs).2.2.1
      | (st, .resp c b) => rw [hl] at hs hf; cases b <;> exact (hf hs).2.2.1
  rw [hh, reqHeader_eq header cookie hn]
  refine ⟨?_, ?_, ?_, by simp; omega⟩
  · intro x hx
    exact ⟨canon x.1, canon_lower x.1, by rw [List.mem_reverse, List.mem_map]; exact ⟨x, List.mem_append_left _ hx, rfl⟩⟩
  · intro c hc
    subst hc
    rw [List.mem_reverse, List.mem_map]
    exact ⟨(cookieKey, c), by simp, by simp; decide +kernel⟩
  · intro x hx
    rw [List.mem_reverse, List.mem_map] at hx
    obtain ⟨y, hy, rfl⟩ := hx
    rcases List.mem_append.mp hy with h | h
    · exact .inl ⟨y.1, canon_lower y.1, h⟩
    · right
      cases cookie with
      | none => simp at h
      | some c =>
        have : y = (cookieKey, c) := by simpa using h
        subst this
        exact ⟨(by decide +kernel : canon cookieKey = cookieKey), rfl⟩

/-- `X-a: 1`, `b: 2` and a cookie. -/
example : (post3 (world (fun _ _ => .resp 200 [] (.whole [1])) true) [7] false urlP [([120, 45, 97], [49]), ([98], [50])] (some [99, 61, 49])).1.sent.map
      (·.header) = [[([67, 111, 111, 107, 105, 101], [99, 61, 49]), ([66], [50]), ([88, 45, 65], [49])]] ∧
    ([([120, 45, 97], [49]), ([98], [50])] ++ ((some [99, 61, 49]).map (fun c => (cookieKey, c))).toList : List (Str × Str)).Pairwise
      (fun x y => ¬ SameName x.1 y.1) := by decide +kernel

/-! ## C152: no other headers through line breaks -/

/-- No request goes out with a line break or a zero byte in the name or the value of a header, nor with a colon or a space in a name. -/
theorem C152_no_injection (e : Env) (bs : Str) (close : Bool) (url : Str) (header : List (Str × Str)) (cookie : Option Str) :
    ∀ s ∈ (post3 e bs close url header cookie).1.sent, ∀ x ∈ s.header,
      (10 ∉ x.1 ∧ 13 ∉ x.1 ∧ 0 ∉ x.1 ∧ 58 ∉ x.1 ∧ 32 ∉ x.1 ∧ x.1 ≠ []) ∧ (10 ∉ x.2 ∧ 13 ∉ x.2 ∧ 0 ∉ x.2) := by
  intro s hs x hx
  have hc : Checked e (httpsColon.isPrefixOf url) s := by
    unfold post3 at hs
    dsimp only at hs
    cases hp : parseURL e url with
    | none => rw [hp] at hs; cases hs
    | some u =>
      rw [hp] at hs
      dsimp only at hs
      have hck := loop_checked e (httpsColon.isPrefixOf url) (if 0 < bs.length then some bs else none) 10 true ⟨[], 0⟩ true u (reqHeader header cookie)
        (if 0 < bs.length then some bs else none) (by simp)
      match hl : loop e (httpsColon.isPrefixOf url) (if 0 < bs.length then some bs else none) 10 true ⟨[], 0⟩ true u (reqHeader header cookie)
        (if 0 < bs.length then some bs else none) with
      | (st, .never) => rw [hl] at hs hck; exact hck s hs
      | (st, .err) => rw [hl] at hs hck; exact hck s hs
      | (st, .resp c b) => rw [hl] at hs hck; cases b <;> exact hck s hs
  obtain ⟨h1, h2⟩ := hc.header x hx
  unfold validName at h1
  unfold validValue at h2
  simp only [Bool.and_eq_true, List.all_eq_true] at h1 h2
  refine ⟨⟨fun h => absurd (h1.2 _ h) (by decide), fun h => absurd (h1.2 _ h) (by decide), fun h => absurd (h1.2 _ h) (by decide),
    fun h => absurd (h1.2 _ h) (by decide), fun h => absurd (h1.2 _ h) (by decide), ?_⟩,
    fun h => absurd (h2 _ h) (by decide), fun h => absurd (h2 _ h) (by decide), fun h => absurd (h2 _ h) (by decide)⟩
  intro h
  rw [h] at h1
  exact absurd h1.1 (by decide)

/-- A value with a line break: an error, and nothing is sent; other values go out. -/
example : post3 (world (fun _ _ => .resp 200 [] (.whole [1])) true) [7] false urlP [([97], [49, 13, 10])] none = (⟨[], 0⟩, .err) ∧
    (post3 (world (fun _ _ => .resp 200 [] (.whole [1])) true) [7] false urlP [([97], [49, 9])] none).1.sent.length = 1 := by decide +kernel

/-! ## C153: the data reaches the server that answers -/

/-- The claim: without error, the request that was answered was a POST with the data. -/
def C153_claim : Prop :=
  ∀ (e : Env) (bs : Str) (close : Bool) (url : Str) (header : List (Str × Str)) (cookie : Option Str) (st : St) (b : Str),
    post3 e bs close url header cookie = (st, .ok b) → ∃ pre s, st.sent = pre ++ [s] ∧ s.post = true ∧ s.body.getD [] = bs

/-- It fails: after status 302 the new place gets a GET without data. -/
theorem C153_claim_false : ¬ C153_claim := fun h => by
  obtain ⟨pre, s, h1, h2, _⟩ := h (world (fun pre _ => if pre.length < 1 then .resp 302 [47] (.whole []) else .resp 200 [] (.whole [1])) true) [7] false
    urlP [] none ⟨[⟨true, ⟨http, [47, 47, 104]⟩, [], some [7], false⟩, ⟨false, ⟨http, [47]⟩, [], none, false⟩], 0⟩ [1] (by decide +kernel)
  have : s = ⟨false, ⟨http, [47]⟩, [], none, false⟩ := by
    have := congrArg List.getLast? h1
    simpa using this.symm
  rw [this] at h2
  cases h2

/-- Requests of a call. -/
theorem sent_post3 (e : Env) (bs : Str) (close : Bool) (url : Str) (header : List (Str × Str)) (cookie : Option Str) :
    (post3 e bs close url header cookie).1.sent = [] ∨ ∃ u, parseURL e url = some u ∧
      (post3 e bs close url header cookie).1.sent =
        (loop e (httpsColon.isPrefixOf url) (if 0 < bs.length then some bs else none) 10 true ⟨[], 0⟩ true u (reqHeader header cookie)
        (if 0 < bs.length then some bs else none)).1.sent := by
  unfold post3
  dsimp only
  cases hp : parseURL e url with
  | none => exact .inl rfl
  | some u =>
    right
    refine ⟨u, rfl, ?_⟩
    dsimp only
    match loop e (httpsColon.isPrefixOf url) (if 0 < bs.length then some bs else none) 10 true ⟨[], 0⟩ true u (reqHeader header cookie)
        (if 0 < bs.length then some bs else none) with
    | (st, .never) => rfl
    | (st, .err) => rfl
    | (st, .resp c b) => cases b <;> rfl

theorem body_getD (bs : Str) : (if 0 < bs.length then some bs else none).getD [] = bs := by
  cases bs <;> simp

/-- The first request is a POST with the data, and so is every POST; all requests are, unless a server answered 301, 302 or 303.
Partial: after such an answer a GET follows. -/
theorem C153_delivered_partial (e : Env) (bs : Str) (close : Bool) (url : Str) (header : List (Str × Str)) (cookie : Option Str) :
    (∀ s, (post3 e bs close url header cookie).1.sent.head? = some s → s.post = true ∧ s.body.getD [] = bs) ∧
    (∀ s ∈ (post3 e bs close url header cookie).1.sent, s.post = true → s.body.getD [] = bs) ∧
    ((∀ s ∈ (post3 e bs close url header cookie).1.sent, s.post = true) ∨
      ∃ pre s suf c l o, (post3 e bs close url header cookie).1.sent = pre ++ s :: suf ∧ e.reply pre s = .resp c l o ∧
        (c = 301 ∨ c = 302 ∨ c = 303)) := by
  rcases sent_post3 e bs close url header cookie with h | ⟨u, _, h⟩
  · rw [h]; exact ⟨by simp, by simp, .inl (by simp)⟩
  · rw [h]
    refine ⟨?_, ?_, ?_⟩
    · intro s hs
      have := loop_first _ _ _ _ _ _ _ _ _ _ hs
      exact ⟨this.1, by rw [this.2.2.2]; exact body_getD bs⟩
    · intro s hs hp
      rw [loop_post _ _ _ _ _ _ s hs hp]
      exact body_getD bs
    · exact loop_kept _ _ _ _ _ _ _

example : (post3 (world (fun pre _ => if pre.length < 2 then .resp 308 [47] (.whole []) else .resp 200 [] (.whole [1])) true) [7] false
    urlP [] none).1.sent.map (fun s => (s.post, s.body)) = [(true, some [7]), (true, some [7]), (true, some [7])] := by decide +kernel

/-! ## C154: it returns -/

/-- The claim: a call returns whatever the servers do. -/
def C154_claim : Prop :=
  ∀ (e : Env) (bs : Str) (close : Bool) (url : Str) (header : List (Str × Str)) (cookie : Option Str),
    (post3 e bs close url header cookie).2 ≠ .never

/-- It fails: there is no timeout. -/
theorem C154_claim_false : ¬ C154_claim := fun h =>
  h (world (fun _ _ => .never) true) [7] false urlP [] none (by decide +kernel)

/-- It sends at most ten requests, even if servers redirect for ever, and returns unless a server does not answer the last of them or does not
complete the body of its answer. Partial: no timeout for that. -/
theorem C154_returns_partial (e : Env) (bs : Str) (close : Bool) (url : Str) (header : List (Str × Str)) (cookie : Option Str) :
    (post3 e bs close url header cookie).1.sent.length ≤ 10 ∧
    ((post3 e bs close url header cookie).2 = .never → ∃ pre s, (post3 e bs close url header cookie).1.sent = pre ++ [s] ∧
      (e.reply pre s = .never ∨ ∃ c l, e.reply pre s = .resp c l .never)) := by
  constructor
  · rcases sent_post3 e bs close url header cookie with h | ⟨u, _, h⟩
    · rw [h]; simp
    · rw [h]
      have := loop_count e (httpsColon.isPrefixOf url) (if 0 < bs.length then some bs else none) 10 true ⟨[], 0⟩ true u (reqHeader header cookie)
        (if 0 < bs.length then some bs else none)
      simpa using this
  · intro h
    unfold post3 at h ⊢
    dsimp only at h ⊢
    cases hp : parseURL e url with
    | none => rw [hp] at h; cases h
    | some u =>
      rw [hp] at h
      dsimp only at h ⊢
      have hlast := loop_last e (httpsColon.isPrefixOf url) (if 0 < bs.length then some bs else none) 10 true ⟨[], 0⟩ true u (reqHeader header cookie)
        (if 0 < bs.length then some bs else none)
      have hnever := loop_never e (httpsColon.isPrefixOf url) (if 0 < bs.length then some bs else none) 10 true ⟨[], 0⟩ true u (reqHeader header cookie)
        (if 0 < bs.length then some bs else none)
      match hl : loop e (httpsColon.isPrefixOf url) (if 0 < bs.length then some bs else none) 10 true ⟨[], 0⟩ true u (reqHeader header cookie)
        (if 0 < bs.length then some bs else none) with
      | (st, .never) =>
        rw [hl] at hnever
        obtain ⟨pre, s, h1, h2⟩ := hnever rfl
        exact ⟨pre, s, h1, .inl h2⟩
      | (st, .err) => rw [hl] at h; cases h
      | (st, .resp c o) =>
        rw [hl] at h hlast
        obtain ⟨pre, s, l, h1, h2, _⟩ := hlast c o rfl
        cases o with
        | never => exact ⟨pre, s, h1, .inr ⟨c, l, h2⟩⟩
        | broken => cases h
        | whole b => cases h

/-- Redirects for ever: ten requests and an error. -/
example : (post3 (world (fun _ _ => .resp 307 [47] (.whole [])) true) [7] false urlP [] none).1.sent.length = 10 ∧
    (post3 (world (fun _ _ => .resp 307 [47] (.whole [])) true) [7] false urlP [] none).2 = .err := by decide +kernel

/-! ## C155: nothing is left open -/

/-- When a call returns, the bodies of all responses are closed. -/
theorem C155_closed (e : Env) (bs : Str) (close : Bool) (url : Str) (header : List (Str × Str)) (cookie : Option Str)
    (h : (post3 e bs close url header cookie).2 ≠ .never) : (post3 e bs close url header cookie).1.open_ = 0 := by
  unfold post3 at h ⊢
  dsimp only at h ⊢
  cases hp : parseURL e url with
  | none => rfl
  | some u =>
    rw [hp] at h
    dsimp only at h ⊢
    have ho := loop_open e (httpsColon.isPrefixOf url) (if 0 < bs.length then some bs else none) 10 true ⟨[], 0⟩ true u (reqHeader header cookie)
        (if 0 < bs.length then some bs else none) rfl
    match hl : loop e (httpsColon.isPrefixOf url) (if 0 < bs.length then some bs else none) 10 true ⟨[], 0⟩ true u (reqHeader header cookie)
        (if 0 < bs.length then some bs else none) with
    | (st, .never) => rw [hl] at h; exact absurd rfl h
    | (st, .err) => rw [hl] at ho; exact ho
    | (st, .resp c o) =>
      rw [hl] at h ho
      cases o with
      | never => exact absurd rfl h
      | broken => dsimp only at ho ⊢; omega
      | whole b => dsimp only at ho ⊢; omega

example : (post3 (world (fun pre _ => if pre.length < 2 then .resp 308 [47] (.whole []) else .resp 200 [] .broken) true) [7] false
    urlP [] none).2 = .err := by decide +kernel

end Gofer.Props.Post
