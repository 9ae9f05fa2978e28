import Verif.Model.PostWire
import Verif.Spec.HttpReader
import Verif.Proof.Post
/-!
# Lemmas on requests on the wire
-/
namespace Gofer.PostWireProof
open Gofer.Post Gofer.PostWire
open Gofer.Spec.HttpReader hiding Str

/-! ## Lines -/

theorem line_app (lf : Bool) (a r : Str) (h13 : 13 ∉ a) (h10 : 10 ∉ a) : line lf (a ++ 13 :: 10 :: r) = some (a, r) := by
  induction a with
  | nil => simp [line]
  | cons b a ih =>
    simp only [List.mem_cons, not_or] at h13 h10
    rw [List.cons_append, line, if_neg (fun h => h13.1 h.1.symm), if_neg (fun h => h10.1 h.2.symm), ih h13.2 h10.2]
    rfl

/-! ## Blanks at the ends -/

theorem dropWhile_head (p : UInt8 → Bool) (v : Str) : ∀ b, (v.dropWhile p).head? = some b → p b = false := by
  intro b hb
  induction v with
  | nil => simp at hb
  | cons c v ih =>
    rw [List.dropWhile_cons] at hb
    split at hb
    · exact ih hb
    · rename_i hc
      simp only [List.head?_cons, Option.some.injEq] at hb
      subst hb
      simpa using hc

theorem dropWhile_self (p : UInt8 → Bool) (v : Str) (h : ∀ b, v.head? = some b → p b = false) : v.dropWhile p = v := by
  cases v with
  | nil => rfl
  | cons b v => rw [List.dropWhile_cons, if_neg (by rw [h b rfl]; simp)]

theorem trim_trim (p : UInt8 → Bool) (v : Str) :
    (((((v.dropWhile p).reverse.dropWhile p).reverse).dropWhile p).reverse.dropWhile p).reverse = ((v.dropWhile p).reverse.dropWhile p).reverse := by
  have h1 : (((v.dropWhile p).reverse.dropWhile p).reverse).dropWhile p = ((v.dropWhile p).reverse.dropWhile p).reverse := by
    apply dropWhile_self
    intro b hb
    apply dropWhile_head p v b
    obtain ⟨t, ht⟩ : ((v.dropWhile p).reverse.dropWhile p).reverse <+: v.dropWhile p := by
      have := List.dropWhile_suffix p (l := (v.dropWhile p).reverse)
      simpa using List.reverse_prefix.2 this
    rw [← ht]
    cases hl : ((v.dropWhile p).reverse.dropWhile p).reverse with
    | nil => rw [hl] at hb; simp at hb
    | cons c l => rw [hl] at hb; simpa using hb
  rw [h1, List.reverse_reverse]
  congr 1
  exact dropWhile_self p _ (dropWhile_head p _)

theorem trim_mem (p : UInt8 → Bool) (v : Str) (b : UInt8) (h : b ∈ ((v.dropWhile p).reverse.dropWhile p).reverse) : b ∈ v := by
  rw [List.mem_reverse] at h
  have h1 := List.mem_reverse.1 ((List.dropWhile_sublist p).mem h)
  exact (List.dropWhile_sublist p).mem h1

theorem dropWhile_congr (p q : UInt8 → Bool) (v : Str) (h : ∀ b ∈ v, p b = q b) : v.dropWhile p = v.dropWhile q := by
  induction v with
  | nil => rfl
  | cons b v ih =>
    rw [List.dropWhile_cons, List.dropWhile_cons, h b (by simp), ih fun c hc => h c (by simp [hc])]

theorem trimString_eq (v : Str) (h13 : 13 ∉ v) (h10 : 10 ∉ v) : trimString v = strip v := by
  have h : ∀ b ∈ v, isSpace b = blank b := by
    intro b hb
    have h1 : b ≠ 13 := fun h => h13 (h ▸ hb)
    have h2 : b ≠ 10 := fun h => h10 (h ▸ hb)
    rw [isSpace, blank, beq_false_of_ne h1, beq_false_of_ne h2, Bool.or_false, Bool.or_false]
  unfold trimString strip
  rw [dropWhile_congr isSpace blank v h]
  congr 1
  apply dropWhile_congr
  intro b hb
  exact h b ((List.dropWhile_sublist _).mem (List.mem_reverse.1 hb))

theorem strip_strip (v : Str) : strip (strip v) = strip v := trim_trim blank v

/-! ## Fields -/

/-- A field that can be read back. -/
def Clean (f : Str × Str) : Prop :=
  f.1 ≠ [] ∧ f.1.all nameByte = true ∧ 13 ∉ f.2 ∧ 10 ∉ f.2 ∧ strip f.2 = f.2

theorem nameByte_facts : nameByte 58 = false ∧ nameByte 13 = false ∧ nameByte 10 = false := by decide

theorem Clean.not_mem {f : Str × Str} (h : Clean f) : 58 ∉ f.1 ∧ 13 ∉ f.1 ∧ 10 ∉ f.1 := by
  have h1 := List.all_eq_true.1 h.2.1
  refine ⟨fun hm => ?_, fun hm => ?_, fun hm => ?_⟩ <;> have := h1 _ hm <;> revert this <;> decide

theorem field_clean (f : Str × Str) (h : Clean f) : field (f.1 ++ [58, 32] ++ f.2) = some f := by
  have hk : (f.1 ++ [58, 32] ++ f.2).takeWhile (fun b => b != 58) = f.1 := by
    rw [List.append_assoc, List.takeWhile_append_of_pos (by
      intro b hb
      simp only [bne_iff_ne, ne_eq]
      rintro rfl
      exact h.not_mem.1 hb)]
    simp
  unfold field
  simp only [hk]
  rw [if_pos ⟨h.1, h.2.1, by simp⟩]
  have hd : (f.1 ++ [58, 32] ++ f.2).drop (f.1.length + 1) = 32 :: f.2 := by
    rw [List.append_assoc, ← List.drop_drop, List.drop_left]
    rfl
  rw [hd]
  have : strip (32 :: f.2) = strip f.2 := by
    unfold strip
    rw [List.dropWhile_cons, if_pos (by decide)]
  rw [this, h.2.2.2.2]

theorem fields_app (lf : Bool) (fs : List (Str × Str)) (h : ∀ f ∈ fs, Clean f) (r : Str) (n : Nat) (hn : fs.length < n) :
    fields lf n (fs.flatMap fieldBytes ++ 13 :: 10 :: r) = some (fs, r) := by
  induction fs generalizing n with
  | nil =>
    obtain ⟨n, rfl⟩ : ∃ m, n = m + 1 := ⟨n - 1, by simp at hn; omega⟩
    have := line_app lf [] r (by simp) (by simp)
    simp only [List.nil_append] at this
    simp only [List.flatMap_nil, List.nil_append, fields, this]
  | cons f fs ih =>
    obtain ⟨n, rfl⟩ : ∃ m, n = m + 1 := ⟨n - 1, by simp at hn; omega⟩
    have hc := h f (by simp)
    have hl : line lf ((f :: fs).flatMap fieldBytes ++ 13 :: 10 :: r) =
        some (f.1 ++ [58, 32] ++ f.2, fs.flatMap fieldBytes ++ 13 :: 10 :: r) := by
      have := line_app lf (f.1 ++ [58, 32] ++ f.2) (fs.flatMap fieldBytes ++ 13 :: 10 :: r)
        (by simp [hc.not_mem, hc.2.2.1]) (by simp [hc.not_mem, hc.2.2.2.1])
      rw [← this]
      simp [List.flatMap_cons, fieldBytes]
    have hne : f.1 ++ [58, 32] ++ f.2 ≠ [] := by simp
    have hr := ih (fun g hg => h g (by simp [hg])) n (by simp at hn; omega)
    have hfc := field_clean f hc
    rw [fields, hl]
    revert hne hfc
    generalize f.1 ++ [58, 32] ++ f.2 = l
    intro hne hfc
    cases l with
    | nil => exact absurd rfl hne
    | cons b l =>
      simp only [hr, hfc]

/-! ## Numbers -/

theorem digitsFrom_spec (n i : Nat) (h : i < n) : digitsFrom n i ≠ [] ∧ (digitsFrom n i).all (fun b => 48 ≤ b && b ≤ 57) = true ∧
    (digitsFrom n i).foldl (fun n b => 10 * n + (b.toNat - 48)) 0 = i := by
  have digit : ∀ j, j < 10 → ((48 ≤ UInt8.ofNat (48 + j) && UInt8.ofNat (48 + j) ≤ 57) = true) ∧ (UInt8.ofNat (48 + j)).toNat - 48 = j := by
    decide
  induction n generalizing i with
  | zero => omega
  | succ n ih =>
    rw [digitsFrom]
    split
    · rename_i h10
      obtain ⟨d1, d2⟩ := digit i h10
      refine ⟨by simp, by simpa using d1, ?_⟩
      simp only [List.foldl_cons, List.foldl_nil]
      omega
    · rename_i h10
      obtain ⟨i1, i2, i3⟩ := ih (i / 10) (by omega)
      obtain ⟨d1, d2⟩ := digit (i % 10) (by omega)
      refine ⟨by simp, ?_, ?_⟩
      · rw [List.all_append, i2]
        simpa using d1
      · rw [List.foldl_append, i3]
        simp only [List.foldl_cons, List.foldl_nil]
        omega

theorem decimal_digits (n : Nat) : decimal (digits n) = some n := by
  obtain ⟨h1, h2, h3⟩ := digitsFrom_spec (n + 1) n (by omega)
  unfold decimal digits
  rw [if_pos ⟨h1, h2⟩, h3]

theorem strip_noblank (v : Str) (h : ∀ b ∈ v, blank b = false) : strip v = v := by
  unfold strip
  have h1 : v.dropWhile blank = v := dropWhile_self _ _ fun b hm => h b (List.mem_of_mem_head? hm)
  have h2 : v.reverse.dropWhile blank = v.reverse :=
    dropWhile_self _ _ fun b hm => h b (List.mem_reverse.1 (List.mem_of_mem_head? hm))
  rw [h1, h2, List.reverse_reverse]

theorem digit_blank : ∀ b : UInt8, (48 ≤ b && b ≤ 57) = true → blank b = false := by
  apply all8
  decide +kernel

theorem digits_clean (n : Nat) : 13 ∉ digits n ∧ 10 ∉ digits n ∧ strip (digits n) = digits n := by
  obtain ⟨_, h2, _⟩ := digitsFrom_spec (n + 1) n (by omega)
  have h : ∀ b ∈ digits n, (48 ≤ b && b ≤ 57) = true := List.all_eq_true.1 h2
  refine ⟨fun hm => ?_, fun hm => ?_, strip_noblank _ fun b hm => digit_blank b (h b hm)⟩
  · have := h _ hm; revert this; decide
  · have := h _ hm; revert this; decide

/-! ## Names -/

theorem low_eq : low = lower := rfl

theorem isToken_nameByte : ∀ b : UInt8, isToken b = nameByte b := by
  apply all8
  decide +kernel

theorem validName_iff (k : Str) (h : validName k = true) : k ≠ [] ∧ k.all nameByte = true := by
  unfold validName at h
  rw [Bool.and_eq_true] at h
  refine ⟨by simpa using h.1, ?_⟩
  rw [← funext isToken_nameByte]
  exact h.2

theorem validValue_not (v : Str) (h : validValue v = true) : 13 ∉ v ∧ 10 ∉ v := by
  unfold validValue at h
  have h1 := List.all_eq_true.1 h
  constructor <;> intro hm <;> have := h1 _ hm <;> revert this <;> decide

/-- Canonical names that are the same but for case are equal. -/
theorem canon_same (k c : Str) (hk : canon k = k) (hv : validName k = true) (hc : canon c = c) (hcv : validName c = true)
    (h : k.map lower = c.map lower) : k = c := by
  unfold validName at hv hcv
  rw [Bool.and_eq_true] at hv hcv
  rw [← hk, ← hc]
  unfold canon
  rw [if_pos hv.2, if_pos hcv.2]
  exact canonLoop_congr _ _ _ h

theorem canonLoop_token (up : Bool) (k : Str) (h : k.all isToken = true) : (canonLoop up k).all isToken = true := by
  have hu : ∀ b : UInt8, isToken b = true → isToken (upper b) = true := by apply all8; decide +kernel
  have hl : ∀ b : UInt8, isToken b = true → isToken (lower b) = true := by apply all8; decide +kernel
  induction k generalizing up with
  | nil => rfl
  | cons b k ih =>
    rw [List.all_cons, Bool.and_eq_true] at h
    rw [canonLoop, List.all_cons, ih _ h.2, Bool.and_true]
    cases up
    · exact hl b h.1
    · exact hu b h.1

theorem canon_canon (k : Str) : canon (canon k) = canon k := by
  unfold canon
  by_cases h : k.all isToken = true
  · rw [if_pos h, if_pos (canonLoop_token _ _ h)]
    exact canonLoop_congr _ _ _ (canonLoop_lower _ _)
  · rw [if_neg h, if_neg h]

/-! ## Headers of requests -/

/-- Names in canonical form, names and values that passed the checks. -/
def Good (h : Header) : Prop := ∀ x ∈ h, canon x.1 = x.1 ∧ validName x.1 = true ∧ validValue x.2 = true

theorem insertBy_mem (x y : Str × Str) (l : List (Str × Str)) : y ∈ insertBy x l ↔ y = x ∨ y ∈ l := by
  induction l with
  | nil => simp [insertBy]
  | cons z l ih =>
    unfold insertBy
    split
    · simp
    · simp only [List.mem_cons, ih]
      exact or_left_comm

theorem sortBy_mem (y : Str × Str) (l : List (Str × Str)) : y ∈ sortBy l ↔ y ∈ l := by
  induction l with
  | nil => simp [sortBy]
  | cons z l ih => simp [sortBy, insertBy_mem, ih]

theorem subset_mem (h : Header) (f : Str × Str) : f ∈ subset h ↔ ∃ v, (f.1, v) ∈ h ∧ excluded f.1 = false ∧ f.2 = trimString v := by
  unfold subset
  simp only [List.mem_map, sortBy_mem, List.mem_filter, Bool.not_eq_true']
  constructor
  · rintro ⟨x, ⟨h1, h2⟩, rfl⟩
    exact ⟨x.2, h1, h2, rfl⟩
  · rintro ⟨v, h1, h2, h3⟩
    exact ⟨(f.1, v), ⟨h1, h2⟩, by rw [← h3]⟩

theorem withAuth_good (auth : Option Str) (ha : ∀ a, auth = some a → validValue a = true) (h : Header) (hg : Good h) : Good (withAuth auth h) := by
  unfold withAuth
  cases auth with
  | none => exact hg
  | some a =>
    simp only
    split
    · intro x hx
      unfold Header.set at hx
      rcases List.mem_cons.1 hx with rfl | hx
      · exact ⟨(by decide +kernel : canon (canon authorizationKey) = canon authorizationKey),
          (by decide +kernel : validName (canon authorizationKey) = true), ha a rfl⟩
      · exact hg x (List.mem_filter.1 hx).1
    · exact hg

theorem get_mem (h : Header) (k v : Str) (hk : h.get k = some v) : (k, v) ∈ h := by
  unfold Header.get at hk
  induction h with
  | nil => simp at hk
  | cons x h ih =>
    obtain ⟨a, b⟩ := x
    rw [List.lookup_cons] at hk
    split at hk
    · rename_i he
      simp only [Option.some.injEq] at hk
      rw [← hk, (by simpa using he : k = a)]
      simp
    · exact List.mem_cons_of_mem _ (ih hk)

theorem trimmed_clean (k v : Str) (hk : k ≠ [] ∧ k.all nameByte = true) (hv : validValue v = true) : Clean (k, trimString v) := by
  obtain ⟨h13, h10⟩ := validValue_not v hv
  refine ⟨hk.1, hk.2, ?_, ?_, ?_⟩
  · exact fun h => h13 (trim_mem isSpace v _ h)
  · exact fun h => h10 (trim_mem isSpace v _ h)
  · show strip (trimString v) = trimString v
    rw [trimString_eq v h13 h10]
    exact strip_strip v

theorem validHost_clean : ∀ b : UInt8, validHost b = true → blank b = false ∧ b ≠ 13 ∧ b ≠ 10 := by
  apply all8
  decide +kernel

theorem userAgent_mem (h : Header) (f : Str × Str) : f ∈ userAgent h ↔
    ∃ ua, (h.get userAgentKey = some ua ∨ (h.get userAgentKey = none ∧ ua = defaultUserAgent)) ∧ ua ≠ [] ∧ f = (userAgentKey, trimString ua) := by
  unfold userAgent
  cases hu : h.get userAgentKey with
  | none =>
    simp only []
    rw [if_pos (by decide)]
    simp [defaultUserAgent]
  | some v =>
    simp only []
    by_cases hv : v = []
    · simp [hv]
    · rw [if_pos hv]
      simp [hv]

/-- Every field can be read back. -/
theorem wireFields_clean (host : Str) (auth : Option Str) (close : Bool) (s : Sent) (hh : host.all validHost = true)
    (ha : ∀ a, auth = some a → validValue a = true) (hg : Good s.header) : ∀ f ∈ wireFields host auth close s, Clean f := by
  have hw := withAuth_good auth ha s.header hg
  have hh' := List.all_eq_true.1 hh
  intro f hf
  unfold wireFields at hf
  simp only [List.append_assoc, List.mem_append, List.mem_singleton] at hf
  rcases hf with rfl | hf | hf | hf | hf
  · refine ⟨(by decide : hostKey ≠ []), (by decide : hostKey.all nameByte = true), ?_, ?_, strip_noblank _ fun b hb => (validHost_clean b (hh' b hb)).1⟩
    · exact fun hb => (validHost_clean _ (hh' _ hb)).2.1 rfl
    · exact fun hb => (validHost_clean _ (hh' _ hb)).2.2 rfl
  · obtain ⟨ua, hu, _, rfl⟩ := (userAgent_mem _ _).1 hf
    refine trimmed_clean _ _ ⟨by decide, by decide⟩ ?_
    rcases hu with hu | ⟨_, rfl⟩
    · exact (hw _ (get_mem _ _ _ hu)).2.2
    · decide +kernel
  · unfold transfer at hf
    rcases List.mem_append.1 hf with hf | hf
    · split at hf
      · rw [List.mem_singleton] at hf
        subst hf
        exact ⟨by decide, by decide, by decide, by decide, by decide⟩
      · simp at hf
    · split at hf
      · rw [List.mem_singleton] at hf
        subst hf
        exact ⟨(by decide : contentLengthKey ≠ []), (by decide : contentLengthKey.all nameByte = true), digits_clean _⟩
      · simp at hf
  · obtain ⟨v, h1, _, h3⟩ := (subset_mem _ _).1 hf
    have := trimmed_clean f.1 v (validName_iff _ (hw _ h1).2.1) (hw _ h1).2.2
    rw [← h3] at this
    exact this
  · unfold extra at hf
    rcases List.mem_append.1 hf with hf | hf
    · split at hf
      · rw [List.mem_singleton] at hf
        subst hf
        exact ⟨by decide, by decide, by decide, by decide, by decide⟩
      · simp at hf
    · split at hf
      · rw [List.mem_singleton] at hf
        subst hf
        exact ⟨by decide, by decide, by decide, by decide, by decide⟩
      · simp at hf

/-! ## Values of single fields -/

theorem valuesOf_append (n : Str) (a b : List (Str × Str)) : valuesOf n (a ++ b) = valuesOf n a ++ valuesOf n b := by
  simp [valuesOf]

theorem valuesOf_nil (n : Str) (a : List (Str × Str)) (h : ∀ f ∈ a, f.1.map low ≠ n.map low) : valuesOf n a = [] := by
  unfold valuesOf
  rw [List.filter_eq_nil_iff.2 (by simpa using h)]
  rfl

theorem subset_values (h : Header) (hg : Good h) (n : Str) (hn : canon n = n) (hv : validName n = true) (he : excluded n = true) :
    valuesOf n (subset h) = [] := by
  apply valuesOf_nil
  intro f hf hl
  obtain ⟨v, h1, h2, _⟩ := (subset_mem _ _).1 hf
  obtain rfl := canon_same f.1 n (hg _ h1).1 (hg _ h1).2.1 hn hv hl
  rw [he] at h2
  simp at h2

theorem userAgent_names (h : Header) : ∀ f ∈ userAgent h, f.1 = userAgentKey := by
  intro f hf
  obtain ⟨ua, _, _, rfl⟩ := (userAgent_mem _ _).1 hf
  rfl

theorem extra_names (close : Bool) (h : Header) : ∀ f ∈ extra close h, f.1 = acceptEncodingKey ∨ f.1 = connectionKey := by
  intro f hf
  unfold extra at hf
  rcases List.mem_append.1 hf with hf | hf
  · split at hf
    · rw [List.mem_singleton] at hf
      exact .inl (by rw [hf])
    · simp at hf
  · split at hf
    · rw [List.mem_singleton] at hf
      exact .inr (by rw [hf])
    · simp at hf

/-- The values of an excluded name: none of the map. -/
theorem values_excluded (host : Str) (auth : Option Str) (close : Bool) (s : Sent) (ha : ∀ a, auth = some a → validValue a = true)
    (hg : Good s.header) (n : Str) (hn : n = hostKey ∨ n = contentLengthKey ∨ n = transferEncodingKey ∨ n = trailerKey) :
    valuesOf n (wireFields host auth close s) = valuesOf n ([(hostKey, host)] ++ transfer close s (withAuth auth s.header)) := by
  have hw := withAuth_good auth ha s.header hg
  have h1 : valuesOf n (userAgent (withAuth auth s.header)) = [] := by
    apply valuesOf_nil
    intro f hf
    rw [userAgent_names _ f hf]
    rcases hn with rfl | rfl | rfl | rfl <;> decide
  have h2 : valuesOf n (subset (withAuth auth s.header)) = [] := by
    apply subset_values _ hw <;> rcases hn with rfl | rfl | rfl | rfl <;> decide
  have h3 : valuesOf n (extra close (withAuth auth s.header)) = [] := by
    apply valuesOf_nil
    intro f hf
    rcases extra_names _ _ f hf with h | h <;> rw [h] <;> rcases hn with rfl | rfl | rfl | rfl <;> decide
  unfold wireFields
  simp only [valuesOf_append, h1, h2, h3, List.append_nil]

theorem bodyLength_wire (host : Str) (auth : Option Str) (close : Bool) (s : Sent) (ha : ∀ a, auth = some a → validValue a = true)
    (hg : Good s.header) : bodyLength (wireFields host auth close s) = some (s.body.getD []).length := by
  have hte : valuesOf transferEncoding (wireFields host auth close s) = [] := by
    rw [values_excluded host auth close s ha hg transferEncoding (.inr (.inr (.inl rfl)))]
    unfold transfer
    split <;> split <;> rfl
  unfold bodyLength
  rw [if_neg (by simp [hte]), values_excluded host auth close s ha hg contentLength (.inr (.inl rfl))]
  unfold transfer
  by_cases hb : 0 < (s.body.getD []).length ∨ s.post = true
  · rw [if_pos hb]
    have : valuesOf contentLength ([(hostKey, host)] ++ ((if (close && !hasTokenFrom closeTok none (getStr (withAuth auth s.header) connectionKey)) = true then
        [(connectionKey, closeTok)] else []) ++ [(contentLengthKey, digits (s.body.getD []).length)])) = [digits (s.body.getD []).length] := by
      split <;> rfl
    rw [this]
    exact decimal_digits _
  · rw [if_neg hb]
    have : valuesOf contentLength ([(hostKey, host)] ++ ((if (close && !hasTokenFrom closeTok none (getStr (withAuth auth s.header) connectionKey)) = true then
        [(connectionKey, closeTok)] else []) ++ [])) = [] := by
      split <;> rfl
    rw [this]
    simp only [Option.some.injEq]
    omega

/-- A request is read back. -/
theorem read_wire (lf : Bool) (host uri : Str) (auth : Option Str) (close : Bool) (s : Sent) (ha : ∀ a, auth = some a → validValue a = true)
    (hg : Good s.header) (w : Str) (hw : wire host uri auth close s = some w) :
    readRequest lf w = some (⟨requestLine s.post uri, wireFields host auth close s, s.body.getD []⟩, []) := by
  unfold wire at hw
  split at hw
  · simp at hw
  rename_i hc
  simp only [not_or, Bool.not_eq_false, Bool.not_eq_true] at hc
  obtain ⟨hh, hu⟩ := hc
  have hu' : 13 ∉ uri ∧ 10 ∉ uri := by
    unfold hasCtl at hu
    have := List.any_eq_false.1 hu
    constructor <;> intro hm <;> exact absurd (by decide) (this _ hm)
  have hl : 13 ∉ requestLine s.post uri ∧ 10 ∉ requestLine s.post uri := by
    unfold requestLine
    cases s.post <;> simp [hu']
  have hwe : w = requestLine s.post uri ++ 13 :: 10 :: ((wireFields host auth close s).flatMap fieldBytes ++ 13 :: 10 :: s.body.getD []) := by
    rw [← Option.some.inj hw]
    simp
  have hlen : ∀ fs : List (Str × Str), fs.length ≤ (fs.flatMap fieldBytes).length := by
    intro fs
    induction fs with
    | nil => simp
    | cons f fs ih =>
      rw [List.flatMap_cons, List.length_append, List.length_cons]
      have : 1 ≤ (fieldBytes f).length := by simp [fieldBytes]; omega
      omega
  have hf := fields_app lf _ (wireFields_clean host auth close s hh ha hg) (s.body.getD [])
    (((wireFields host auth close s).flatMap fieldBytes ++ 13 :: 10 :: s.body.getD []).length + 1) (by
      rw [List.length_append]
      have := hlen (wireFields host auth close s)
      omega)
  unfold readRequest
  rw [hwe, line_app lf _ _ hl.1 hl.2]
  simp only [hf, bodyLength_wire host auth close s ha hg]
  rw [if_pos (Nat.le_refl _), List.take_length, List.drop_length]

/-! ## The headers of all requests of a call -/

theorem set_canon (h : Header) (k v : Str) (hc : ∀ x ∈ h, canon x.1 = x.1) : ∀ x ∈ Header.set h k v, canon x.1 = x.1 := by
  intro x hx
  unfold Header.set at hx
  rcases List.mem_cons.1 hx with rfl | hx
  · exact canon_canon k
  · exact hc x (List.mem_filter.1 hx).1

theorem foldl_canon (es : List (Str × Str)) (h : Header) (hc : ∀ x ∈ h, canon x.1 = x.1) :
    ∀ x ∈ es.foldl (fun h e => Header.set h e.1 e.2) h, canon x.1 = x.1 := by
  induction es generalizing h with
  | nil => exact hc
  | cons e es ih => exact ih _ (set_canon h e.1 e.2 hc)

theorem reqHeader_canon (es : List (Str × Str)) (cookie : Option Str) : ∀ x ∈ reqHeader es cookie, canon x.1 = x.1 := by
  have h := foldl_canon es [] (by simp)
  unfold reqHeader
  cases cookie with
  | none => exact h
  | some c =>
    simp only
    unfold addCookie
    split
    · split <;> exact set_canon _ _ _ h
    · exact set_canon _ _ _ h

/-- All requests of a call have canonical names if redirected ones do. -/
theorem loop_canon (e : Env) (insecure : Bool) (first : Option Str) (n : Nat) (k : Bool) (p : Bool) (u : Url) (h : Header) (b : Option Str)
    (he : ∀ pre u, ∀ x ∈ e.redirectHeader pre u, canon x.1 = x.1) (hh : ∀ x ∈ h, canon x.1 = x.1) :
    ∀ s ∈ (loop e insecure first n k ⟨[], 0⟩ p u h b).1.sent, ∀ x ∈ s.header, canon x.1 = x.1 := by
  have key : ∀ (st : St) (p : Bool) (u : Url) (h : Header) (b : Option Str) (st' : St) (r : Reply),
      (∀ s ∈ st.sent, ∀ x ∈ s.header, canon x.1 = x.1) → (∀ x ∈ h, canon x.1 = x.1) → send e insecure st p u h b = (st', r) →
      ∀ s ∈ st'.sent, ∀ x ∈ s.header, canon x.1 = x.1 := by
    intro st p u h b st' r hI hh hs s hm
    rcases send_cases _ _ _ _ _ _ _ _ _ hs with ⟨h1, _⟩ | ⟨v, _, _, h2, _⟩
    · subst h1; exact hI s hm
    · rw [h2] at hm
      rcases List.mem_append.mp hm with h3 | h3
      · exact hI s h3
      · rw [List.mem_singleton.mp h3]; exact hh
  exact loop_ind e insecure first
    (fun _ st _ _ h _ => (∀ s ∈ st.sent, ∀ x ∈ s.header, canon x.1 = x.1) ∧ ∀ x ∈ h, canon x.1 = x.1)
    (fun st _ => ∀ s ∈ st.sent, ∀ x ∈ s.header, canon x.1 = x.1)
    (fun _ _ _ _ _ _ h => h.1) (fun _ _ _ _ _ _ _ h hs => key _ _ _ _ _ _ _ h.1 h.2 hs) (fun _ _ _ _ _ _ _ h hs => key _ _ _ _ _ _ _ h.1 h.2 hs)
    (fun _ _ _ _ _ _ _ _ _ _ h hs _ => key _ _ _ _ _ _ _ h.1 h.2 hs)
    (fun _ _ _ _ _ _ _ _ _ _ h hs _ => (by have := key _ _ _ _ _ _ _ h.1 h.2 hs; exact this))
    (fun _ _ _ _ _ _ _ _ _ _ _ h hs _ _ => ⟨(by have := key _ _ _ _ _ _ _ h.1 h.2 hs; exact this), he _ _⟩)
    n k _ p u h b ⟨by simp, hh⟩

end Gofer.PostWireProof
