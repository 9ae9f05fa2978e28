import Verif.Proof.PostWire
import Verif.Props.Post
/-!
# Requests of `httpclient/post.go` on the wire: C212 and C213
-/
namespace Gofer.Props.PostWire
open Gofer.Post Gofer.PostWire Gofer.PostWireProof Gofer.Props.Post
open Gofer.Spec.Http (SameName)
open Gofer.Spec.HttpReader (Request readRequest valuesOf strip)

/-- Redirected requests have header names in canonical form (the library copies them from the first request). -/
def Redirected (e : Env) : Prop := ∀ pre u, ∀ x ∈ e.redirectHeader pre u, canon x.1 = x.1

/-- The credentials of the URL have no control characters (they are base64). -/
def Plain (auth : Option Str) : Prop := ∀ a, auth = some a → validValue a = true

theorem sent_good (e : Env) (he : Redirected e) (bs : Str) (close : Bool) (url : Str) (header : List (Str × Str)) (cookie : Option Str) :
    ∀ s ∈ (post3 e bs close url header cookie).1.sent, Good s.header := by
  intro s hs x hx
  rcases sent_post3 e bs close url header cookie with h | ⟨u, _, h⟩
  · rw [h] at hs
    cases hs
  · rw [h] at hs
    have h1 := loop_checked e (httpsColon.isPrefixOf url) (if 0 < bs.length then some bs else none) 10 true ⟨[], 0⟩ true u (reqHeader header cookie)
      (if 0 < bs.length then some bs else none) (by simp) s hs
    have h2 := loop_canon e (httpsColon.isPrefixOf url) (if 0 < bs.length then some bs else none) 10 true true u (reqHeader header cookie)
      (if 0 < bs.length then some bs else none) he (reqHeader_canon header cookie) s hs x hx
    exact ⟨h2, h1.header x hx⟩

/-- C212: whatever the map of headers, the cookie and the data are, a server reads one request from the bytes of each request that goes out,
with the data of this request as its body, and nothing is left over. -/
theorem C212_one_request (lf : Bool) (e : Env) (he : Redirected e) (bs : Str) (close : Bool) (url : Str) (header : List (Str × Str))
    (cookie : Option Str) (host uri : Str) (auth : Option Str) (ha : Plain auth) (c : Bool) (w : Str) :
    ∀ s ∈ (post3 e bs close url header cookie).1.sent, wire host uri auth c s = some w →
      ∃ r, readRequest lf w = some (r, []) ∧ r.body = s.body.getD [] := by
  intro s hs hw
  exact ⟨_, read_wire lf host uri auth c s ha (sent_good e he bs close url header cookie s hs) w hw, rfl⟩

/-- The first request. -/
theorem first_sent (e : Env) (bs : Str) (close : Bool) (url : Str) (header : List (Str × Str)) (cookie : Option Str) (s : Sent)
    (hs : (post3 e bs close url header cookie).1.sent.head? = some s) : s.post = true ∧ s.header = reqHeader header cookie ∧ s.body.getD [] = bs := by
  rcases sent_post3 e bs close url header cookie with h | ⟨u, _, h⟩
  · rw [h] at hs
    cases hs
  · rw [h] at hs
    have hf := loop_first e (httpsColon.isPrefixOf url) (if 0 < bs.length then some bs else none) 10 true true u (reqHeader header cookie)
      (if 0 < bs.length then some bs else none) s hs
    exact ⟨hf.1, hf.2.2.1, by rw [hf.2.2.2]; exact body_getD bs⟩

/-- C212: the first request is a `POST` with the data given. -/
theorem C212_first (lf : Bool) (e : Env) (he : Redirected e) (bs : Str) (close : Bool) (url : Str) (header : List (Str × Str))
    (cookie : Option Str) (host uri : Str) (auth : Option Str) (ha : Plain auth) (s : Sent) (w : Str)
    (hs : (post3 e bs close url header cookie).1.sent.head? = some s) (hw : wire host uri auth close s = some w) :
    ∃ fs, readRequest lf w = some (⟨[80, 79, 83, 84, 32] ++ uri ++ [32, 72, 84, 84, 80, 47, 49, 46, 49], fs, bs⟩, []) := by
  obtain ⟨h1, _, h3⟩ := first_sent e bs close url header cookie s hs
  have := read_wire lf host uri auth close s ha (sent_good e he bs close url header cookie s (List.mem_of_mem_head? hs)) w hw
  rw [h3, h1] at this
  exact ⟨_, this⟩

/-- C213: the fields that say where the request goes and where it ends are never those of the map. -/
theorem C213_own (lf : Bool) (e : Env) (he : Redirected e) (bs : Str) (close : Bool) (url : Str) (header : List (Str × Str))
    (cookie : Option Str) (host uri : Str) (auth : Option Str) (ha : Plain auth) (c : Bool) (s : Sent) (w : Str) (r : Request)
    (hs : s ∈ (post3 e bs close url header cookie).1.sent) (hw : wire host uri auth c s = some w)
    (hr : readRequest lf w = some (r, [])) :
    valuesOf hostKey r.fields = [host] ∧ valuesOf transferEncodingKey r.fields = [] ∧ valuesOf trailerKey r.fields = [] ∧
      ∀ v ∈ valuesOf contentLengthKey r.fields, Spec.HttpReader.decimal v = some (s.body.getD []).length := by
  have hg := sent_good e he bs close url header cookie s hs
  rw [read_wire lf host uri auth c s ha hg w hw] at hr
  obtain rfl := (Prod.mk.inj (Option.some.inj hr)).1
  simp only
  rw [values_excluded host auth c s ha hg hostKey (.inl rfl), values_excluded host auth c s ha hg transferEncodingKey (.inr (.inr (.inl rfl))),
    values_excluded host auth c s ha hg trailerKey (.inr (.inr (.inr rfl))), values_excluded host auth c s ha hg contentLengthKey (.inr (.inl rfl))]
  unfold transfer
  refine ⟨by split <;> split <;> rfl, by split <;> split <;> rfl, by split <;> split <;> rfl, ?_⟩
  by_cases hb : 0 < (s.body.getD []).length ∨ s.post = true
  · rw [if_pos hb]
    have : valuesOf contentLengthKey ([(hostKey, host)] ++ ((if (c && !hasTokenFrom closeTok none (getStr (withAuth auth s.header) connectionKey)) = true then
        [(connectionKey, closeTok)] else []) ++ [(contentLengthKey, digits (s.body.getD []).length)])) = [digits (s.body.getD []).length] := by
      split <;> rfl
    rw [this]
    intro v hv
    rw [List.mem_singleton.1 hv]
    exact decimal_digits _
  · rw [if_neg hb]
    have : valuesOf contentLengthKey ([(hostKey, host)] ++ ((if (c && !hasTokenFrom closeTok none (getStr (withAuth auth s.header) connectionKey)) = true then
        [(connectionKey, closeTok)] else []) ++ [])) = [] := by
      split <;> rfl
    rw [this]
    simp

/-- Names whose entries in the map are not written. -/
def Dropped (k : Str) : Prop := SameName k hostKey ∨ SameName k contentLengthKey ∨ SameName k transferEncodingKey ∨ SameName k trailerKey

/-- C213 at full strength: the first request has every entry of the map, but for blanks at the ends of values. -/
def C213_claim : Prop :=
  ∀ (e : Env), Redirected e → ∀ (bs : Str) (close : Bool) (url : Str) (header : List (Str × Str)) (host uri : Str) (s : Sent) (w : Str) (r : Request),
    header.Pairwise (fun x y => ¬ SameName x.1 y.1) → (post3 e bs close url header none).1.sent.head? = some s →
    wire host uri none close s = some w → readRequest false w = some (r, []) →
    ∀ x ∈ header, ∃ k', SameName k' x.1 ∧ (k', strip x.2) ∈ r.fields

/-- The server that answers at once. -/
def plainWorld : Env := world (fun _ _ => .resp 200 [] (.whole [1])) true

theorem plainWorld_redirected : Redirected plainWorld := fun _ _ _ h => by cases h

/-- C213 is false: another `Host` is not sent. -/
theorem C213_claim_false : ¬ C213_claim := by
  intro h
  obtain ⟨s, hs⟩ : ∃ s, (post3 plainWorld [7] false urlP [([104, 111, 115, 116], [120])] none).1.sent.head? = some s :=
    Option.isSome_iff_exists.1 (by decide +kernel)
  obtain ⟨w, hw⟩ : ∃ w, wire [104] [47] none false s = some w := by
    unfold wire
    rw [if_neg (by decide)]
    exact ⟨_, rfl⟩
  obtain ⟨r, hr, _⟩ := C212_one_request false plainWorld plainWorld_redirected [7] false urlP [([104, 111, 115, 116], [120])] none [104] [47] none
    (fun _ h => by cases h) false w s (List.mem_of_mem_head? hs) hw
  obtain ⟨k', h1, h2⟩ := h plainWorld plainWorld_redirected [7] false urlP [([104, 111, 115, 116], [120])] [104] [47] s w r (by simp) hs hw hr
    ([104, 111, 115, 116], [120]) (by simp)
  have ho := (C213_own false plainWorld plainWorld_redirected [7] false urlP [([104, 111, 115, 116], [120])] none [104] [47] none
    (fun _ h => by cases h) false s w r (List.mem_of_mem_head? hs) hw hr).1
  have : strip [120] ∈ valuesOf hostKey r.fields := by
    unfold valuesOf
    rw [List.mem_map]
    refine ⟨_, List.mem_filter.2 ⟨h2, ?_⟩, rfl⟩
    rw [beq_iff_eq]
    exact h1.trans (by decide)
  rw [ho] at this
  revert this
  decide

theorem get_of_mem (h : Header) (hn : h.Pairwise (fun x y => x.1 ≠ y.1)) (k v : Str) (hm : (k, v) ∈ h) : h.get k = some v := by
  unfold Header.get
  induction h with
  | nil => simp at hm
  | cons x h ih =>
    rw [List.pairwise_cons] at hn
    obtain ⟨a, b⟩ := x
    rw [List.lookup_cons]
    rcases List.mem_cons.1 hm with hm | hm
    · obtain ⟨rfl, rfl⟩ := Prod.mk.inj hm
      simp
    · have : (k == a) = false := by
        rw [beq_eq_false_iff_ne]
        exact fun h => hn.1 _ hm h.symm
      rw [this]
      exact ih hn.2 hm

/-- The header of the first request and its keys. -/
theorem req_pairwise (es : List (Str × Str)) (hn : es.Pairwise (fun x y => ¬ SameName x.1 y.1)) :
    ((es.map (fun x => (canon x.1, x.2))).reverse).Pairwise (fun x y => x.1 ≠ y.1) := by
  rw [List.pairwise_reverse, List.pairwise_map]
  refine hn.imp ?_
  intro x y h he
  exact h (canon_eq_same _ _ he.symm)

theorem withAuth_keep (auth : Option Str) (h : Header) (hn : h.Pairwise (fun x y => x.1 ≠ y.1)) (k v : Str) (hm : (k, v) ∈ h)
    (hc : v ≠ [] ∨ k ≠ authorizationKey) : (k, v) ∈ withAuth auth h := by
  unfold withAuth
  cases auth with
  | none => exact hm
  | some a =>
    simp only
    split
    · rename_i h0
      have hk : k ≠ authorizationKey := by
        rintro rfl
        rcases hc with hc | hc
        · rw [getStr, get_of_mem h hn _ _ hm] at h0
          exact hc h0
        · exact hc rfl
      unfold Header.set
      refine List.mem_cons_of_mem _ (List.mem_filter.2 ⟨hm, ?_⟩)
      have : canon authorizationKey = authorizationKey := by decide +kernel
      rw [this]
      simpa using hk
    · exact hm

theorem withAuth_pairwise (auth : Option Str) (h : Header) (hn : h.Pairwise (fun x y => x.1 ≠ y.1)) :
    (withAuth auth h).Pairwise (fun x y => x.1 ≠ y.1) := by
  unfold withAuth
  cases auth with
  | none => exact hn
  | some a =>
    simp only
    split
    · unfold Header.set
      rw [List.pairwise_cons]
      refine ⟨?_, hn.filter _⟩
      intro y hy he
      have := (List.mem_filter.1 hy).2
      rw [← he] at this
      simp at this
    · exact hn

theorem withAuth_from (auth : Option Str) (h : Header) (x : Str × Str) (hm : x ∈ withAuth auth h) :
    x ∈ h ∨ (x.1 = authorizationKey ∧ auth = some x.2) := by
  unfold withAuth at hm
  cases auth with
  | none => exact .inl hm
  | some a =>
    simp only at hm
    split at hm
    · unfold Header.set at hm
      rcases List.mem_cons.1 hm with rfl | hm
      · exact .inr ⟨(by decide +kernel : canon authorizationKey = authorizationKey), rfl⟩
      · exact .inl (List.mem_filter.1 hm).1
    · exact .inl hm

theorem excluded_iff (k : Str) (hk : canon k = k) (hv : validName k = true) :
    excluded k = true ↔ SameName k userAgentKey ∨ Dropped k := by
  have same : ∀ n, canon n = n → validName n = true → (SameName k n ↔ k = n) := by
    intro n h1 h2
    constructor
    · exact fun h => canon_same k n hk hv h1 h2 h
    · rintro rfl
      rfl
  unfold Dropped
  rw [same _ (by decide +kernel) (by decide +kernel), same _ (by decide +kernel) (by decide +kernel), same _ (by decide +kernel) (by decide +kernel),
    same _ (by decide +kernel) (by decide +kernel), same _ (by decide +kernel) (by decide +kernel)]
  unfold excluded
  simp only [List.contains_eq_mem, List.mem_cons, List.not_mem_nil, or_false, decide_eq_true_eq]
  exact or_left_comm

/-- C213, as far as it holds: if names differ in more than case, the first request has all entries of the map and the cookie, but for blanks at
the ends of values, with these exceptions: entries named `Host`, `Content-Length`, `Transfer-Encoding` or `Trailer`, an empty `User-Agent`,
and an empty `Authorization` if the URL has credentials. -/
theorem C213_arrive_partial (lf : Bool) (e : Env) (he : Redirected e) (bs : Str) (close : Bool) (url : Str) (header : List (Str × Str))
    (cookie : Option Str) (host uri : Str) (auth : Option Str) (ha : Plain auth) (s : Sent) (w : Str) (r : Request)
    (hn : (header ++ (cookie.map (fun c => (cookieKey, c))).toList).Pairwise (fun x y => ¬ SameName x.1 y.1))
    (hs : (post3 e bs close url header cookie).1.sent.head? = some s) (hw : wire host uri auth close s = some w)
    (hr : readRequest lf w = some (r, [])) :
    ∀ x ∈ header ++ (cookie.map (fun c => (cookieKey, c))).toList, ¬ Dropped x.1 → (SameName x.1 userAgentKey → x.2 ≠ []) →
      (SameName x.1 authorizationKey → x.2 ≠ [] ∨ auth = none) → ∃ k', SameName k' x.1 ∧ (k', strip x.2) ∈ r.fields := by
  have hg := sent_good e he bs close url header cookie s (List.mem_of_mem_head? hs)
  have hh := (first_sent e bs close url header cookie s hs).2.1
  rw [read_wire lf host uri auth close s ha hg w hw] at hr
  obtain rfl := (Prod.mk.inj (Option.some.inj hr)).1
  simp only
  intro x hx hd hu hau
  have heq := reqHeader_eq header cookie hn
  have hp := req_pairwise _ hn
  rw [← heq, ← hh] at hp
  have hm : (canon x.1, x.2) ∈ s.header := by
    rw [hh, heq, List.mem_reverse, List.mem_map]
    exact ⟨x, hx, rfl⟩
  have hx' := hg _ hm
  have hsn : SameName (canon x.1) x.1 := canon_lower x.1
  have hv := validValue_not _ hx'.2.2
  have hka : (canon x.1, x.2) ∈ withAuth auth s.header := by
    by_cases h1 : canon x.1 = authorizationKey
    · have : SameName x.1 authorizationKey := by rw [← h1]; exact hsn.symm
      rcases hau this with h2 | h2
      · exact withAuth_keep auth s.header hp _ _ hm (.inl h2)
      · rw [h2]
        exact hm
    · exact withAuth_keep auth s.header hp _ _ hm (.inr h1)
  refine ⟨canon x.1, hsn, ?_⟩
  rw [← trimString_eq x.2 hv.1 hv.2]
  unfold wireFields
  simp only [List.append_assoc, List.mem_append]
  by_cases hua : canon x.1 = userAgentKey
  · refine .inr (.inl ((userAgent_mem _ _).2 ⟨x.2, .inl ?_, hu ?_, by rw [hua]⟩))
    · rw [← hua]
      exact get_of_mem _ (withAuth_pairwise auth s.header hp) _ _ hka
    · rw [← hua]
      exact hsn.symm
  · refine .inr (.inr (.inr (.inl ((subset_mem _ _).2 ⟨x.2, hka, ?_, rfl⟩))))
    cases hex : excluded (canon x.1) with
    | false => rfl
    | true =>
      rcases (excluded_iff _ hx'.1 hx'.2.1).1 hex with h | h
      · exact absurd (canon_same _ _ hx'.1 hx'.2.1 (by decide +kernel) (by decide +kernel) h) hua
      · have tr : ∀ n, SameName (canon x.1) n → SameName x.1 n := fun n h => hsn.symm.trans h
        exact absurd (h.imp (tr _) (Or.imp (tr _) (Or.imp (tr _) (tr _)))) hd

/-- C213: all other fields are these: `Host`, the `User-Agent` of the library, `Content-Length`, `Connection: close`, `Accept-Encoding: gzip`
and the credentials of the URL. -/
theorem C213_from (lf : Bool) (e : Env) (he : Redirected e) (bs : Str) (close : Bool) (url : Str) (header : List (Str × Str))
    (cookie : Option Str) (host uri : Str) (auth : Option Str) (ha : Plain auth) (s : Sent) (w : Str) (r : Request)
    (hn : (header ++ (cookie.map (fun c => (cookieKey, c))).toList).Pairwise (fun x y => ¬ SameName x.1 y.1))
    (hs : (post3 e bs close url header cookie).1.sent.head? = some s) (hw : wire host uri auth close s = some w)
    (hr : readRequest lf w = some (r, [])) :
    ∀ f ∈ r.fields, (∃ x ∈ header ++ (cookie.map (fun c => (cookieKey, c))).toList, SameName f.1 x.1 ∧ f.2 = strip x.2) ∨
      f = (hostKey, host) ∨ f = (userAgentKey, defaultUserAgent) ∨ (f.1 = contentLengthKey ∧ Spec.HttpReader.decimal f.2 = some bs.length) ∨
      f = (connectionKey, closeTok) ∨ f = (acceptEncodingKey, gzip) ∨ (f.1 = authorizationKey ∧ ∃ a, auth = some a ∧ f.2 = strip a) := by
  have hg := sent_good e he bs close url header cookie s (List.mem_of_mem_head? hs)
  obtain ⟨_, hh, hbs⟩ := first_sent e bs close url header cookie s hs
  rw [read_wire lf host uri auth close s ha hg w hw] at hr
  obtain rfl := (Prod.mk.inj (Option.some.inj hr)).1
  simp only
  have heq := reqHeader_eq header cookie hn
  have old : ∀ k v, (k, v) ∈ s.header → ∃ x ∈ header ++ (cookie.map (fun c => (cookieKey, c))).toList, SameName k x.1 ∧ trimString v = strip x.2 := by
    intro k v hm
    have hv := validValue_not _ (hg _ hm).2.2
    rw [hh, heq, List.mem_reverse, List.mem_map] at hm
    obtain ⟨x, hx, hxe⟩ := hm
    obtain ⟨rfl, rfl⟩ := Prod.mk.inj hxe
    exact ⟨x, hx, canon_lower x.1, trimString_eq _ hv.1 hv.2⟩
  intro f hf
  unfold wireFields at hf
  simp only [List.append_assoc, List.mem_append, List.mem_singleton] at hf
  rcases hf with rfl | hf | hf | hf | hf
  · exact .inr (.inl rfl)
  · obtain ⟨ua, hu, _, rfl⟩ := (userAgent_mem _ _).1 hf
    rcases hu with hu | ⟨_, rfl⟩
    · rcases withAuth_from _ _ _ (get_mem _ _ _ hu) with h | ⟨h, _⟩
      · exact .inl (old _ _ h)
      · exact absurd (show userAgentKey = authorizationKey from h) (by decide)
    · exact .inr (.inr (.inl (by decide +kernel)))
  · unfold transfer at hf
    rcases List.mem_append.1 hf with hf | hf
    · split at hf
      · rw [List.mem_singleton] at hf
        exact .inr (.inr (.inr (.inr (.inl hf))))
      · simp at hf
    · split at hf
      · rw [List.mem_singleton] at hf
        refine .inr (.inr (.inr (.inl ⟨by rw [hf], ?_⟩)))
        rw [hf, hbs]
        exact decimal_digits _
      · simp at hf
  · obtain ⟨v, h1, _, h3⟩ := (subset_mem _ _).1 hf
    have hv := validValue_not _ (withAuth_good auth ha _ hg _ h1).2.2
    rcases withAuth_from _ _ _ h1 with h | ⟨h, h'⟩
    · rw [h3]
      exact .inl (old _ _ h)
    · refine .inr (.inr (.inr (.inr (.inr (.inr ⟨h, v, h', ?_⟩)))))
      rw [h3, trimString_eq v hv.1 hv.2]
  · unfold extra at hf
    rcases List.mem_append.1 hf with hf | hf
    · split at hf
      · rw [List.mem_singleton] at hf
        exact .inr (.inr (.inr (.inr (.inr (.inl hf)))))
      · simp at hf
    · split at hf
      · rw [List.mem_singleton] at hf
        exact .inr (.inr (.inr (.inr (.inl hf))))
      · simp at hf

/-- C213: a `Cookie` in the map and a cookie are joined, with a semicolon and a space between them. -/
theorem C213_cookies (e : Env) (bs : Str) (close : Bool) (url : Str) (before after : List (Str × Str)) (k o c : Str) (s : Sent)
    (hk : SameName k cookieKey) (ho : o ≠ []) (hn : (before ++ (k, o) :: after).Pairwise (fun x y => ¬ SameName x.1 y.1))
    (hs : (post3 e bs close url (before ++ (k, o) :: after) (some c)).1.sent.head? = some s) :
    s.header.get cookieKey = some (o ++ [59, 32] ++ c) := by
  rw [(first_sent e bs close url _ _ s hs).2.1]
  have heq := reqHeader_eq (before ++ (k, o) :: after) none (by rw [Option.map_none, Option.toList_none, List.append_nil]; exact hn)
  have hp := req_pairwise _ hn
  have hck : canon k = cookieKey := by
    have : k.all isToken = true := by
      have h1 : ∀ b : UInt8, isToken (lower b) = true → isToken b = true := by apply all8; decide +kernel
      rw [List.all_eq_true]
      intro b hb
      apply h1
      have h2 : lower b ∈ k.map lower := List.mem_map_of_mem hb
      rw [show k.map lower = cookieKey.map lower from hk] at h2
      revert h2
      have : ∀ b ∈ cookieKey.map lower, isToken b = true := by decide +kernel
      exact this _
    unfold canon
    rw [if_pos this]
    exact (canonLoop_congr true k cookieKey hk).trans (by decide +kernel)
  have hg : Header.get ((before ++ (k, o) :: after).foldl (fun h e => Header.set h e.1 e.2) []) cookieKey = some o := by
    have h0 : reqHeader (before ++ (k, o) :: after) none = (before ++ (k, o) :: after).foldl (fun h e => Header.set h e.1 e.2) [] := rfl
    simp only [Option.map_none, Option.toList_none, List.append_nil] at heq
    rw [← h0, heq]
    refine get_of_mem _ hp _ _ ?_
    rw [List.mem_reverse, List.mem_map]
    exact ⟨(k, o), by simp, by rw [hck]⟩
  unfold reqHeader
  simp only
  unfold addCookie
  rw [hg]
  simp only
  rw [if_pos ho]
  unfold Header.set Header.get
  rw [List.lookup_cons, (by decide +kernel : canon cookieKey = cookieKey)]
  simp

/-- What a server reads of the first request, for host `h` and URI `/`. -/
def reads (lf close : Bool) (header : List (Str × Str)) (cookie auth : Option Str) (bs : Str) : Option (Request × Str) :=
  match (post3 plainWorld bs close urlP header cookie).1.sent.head? with
  | some s =>
    match wire [104] [47] auth close s with
    | some w => readRequest lf w
    | none => none
  | none => none

-- `Content-Length: 99`, `transfer-encoding: chunked`, `host: x`, `x-a:  1 ` and a cookie `c=1`, data `GET / HTTP/1.1`: the server reads these fields
-- and the data as the body.
example : reads true false [([67, 111, 110, 116, 101, 110, 116, 45, 76, 101, 110, 103, 116, 104], [57, 57]),
      ([116, 114, 97, 110, 115, 102, 101, 114, 45, 101, 110, 99, 111, 100, 105, 110, 103], [99, 104, 117, 110, 107, 101, 100]),
      ([104, 111, 115, 116], [120]), ([120, 45, 97], [32, 49, 32])] (some [99, 61, 49]) none [71, 69, 84, 32, 47, 32, 72, 84, 84, 80, 47, 49, 46, 49] =
    some (⟨[80, 79, 83, 84, 32, 47, 32, 72, 84, 84, 80, 47, 49, 46, 49],
      [(hostKey, [104]), (userAgentKey, defaultUserAgent), (contentLengthKey, [49, 52]), (cookieKey, [99, 61, 49]), ([88, 45, 65], [49]),
        (acceptEncodingKey, gzip), (connectionKey, closeTok)], [71, 69, 84, 32, 47, 32, 72, 84, 84, 80, 47, 49, 46, 49]⟩, []) := by decide +kernel

-- A line feed in a value is refused; an own `User-Agent`, `Range` and `Connection: Upgrade` with and without the flag `close`.
example : reads true false [([97], [49, 10, 98])] none none [7] = none ∧
    (reads true false [(userAgentKey, [117]), (rangeKey, [49])] none none []).map (fun x => (x.1.fields, x.2)) =
      some ([(hostKey, [104]), (userAgentKey, [117]), (contentLengthKey, [48]), (rangeKey, [49]), (connectionKey, closeTok)], []) ∧
    (reads true false [(upgradeKey, [117]), (connectionKey, upgradeTok)] none none []).map (fun x => (x.1.fields, x.2)) =
      some ([(hostKey, [104]), (userAgentKey, defaultUserAgent), (contentLengthKey, [48]), (connectionKey, upgradeTok), (upgradeKey, [117]),
        (acceptEncodingKey, gzip)], []) ∧
    (reads true true [(upgradeKey, [117]), (connectionKey, upgradeTok)] none none []).map (fun x => (x.1.fields, x.2)) =
      some ([(hostKey, [104]), (userAgentKey, defaultUserAgent), (connectionKey, closeTok), (contentLengthKey, [48]), (connectionKey, upgradeTok),
        (upgradeKey, [117]), (acceptEncodingKey, gzip)], []) := by
  refine ⟨?_, ?_, ?_, ?_⟩ <;> decide +kernel

-- The credentials of the URL `http://a:b@h/`, `Authorization` of the map, and cookies `a=1` and `c=1` joined.
example : (reads false false [] none (some [66]) []).map (fun x => valuesOf authorizationKey x.1.fields) = some [[66]] ∧
    (reads false false [(authorizationKey, [65])] none (some [66]) []).map (fun x => valuesOf authorizationKey x.1.fields) = some [[65]] ∧
    (reads false false [(cookieKey, [97, 61, 49])] (some [99, 61, 49]) none []).map (fun x => valuesOf cookieKey x.1.fields) =
      some [[97, 61, 49, 59, 32, 99, 61, 49]] := by
  refine ⟨?_, ?_, ?_⟩ <;> decide +kernel

end Gofer.Props.PostWire
