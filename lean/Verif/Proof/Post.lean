import Verif.Model.Post
/-!
# Lemmas on `httpclient/post.go`
-/
namespace Gofer.Post

/-- The codes that redirect. -/
def Redirects (c : Nat) : Prop := c = 301 ∨ c = 302 ∨ c = 303 ∨ c = 307 ∨ c = 308

/-- Induction over the requests of one call. -/
theorem loop_ind (e : Env) (insecure : Bool) (first : Option Str) (I : Bool → St → Bool → Url → Header → Option Str → Prop) (R : St → DoRes → Prop)
    (h0 : ∀ k st p u h b, I k st p u h b → R st .err)
    (h1 : ∀ k st p u h b st', I k st p u h b → send e insecure st p u h b = (st', .never) → R st' .never)
    (h2 : ∀ k st p u h b st', I k st p u h b → send e insecure st p u h b = (st', .fail) → R st' .err)
    (h3 : ∀ k st p u h b st' c l o, I k st p u h b → send e insecure st p u h b = (st', .resp c l o) → (Redirects c → l = []) → R st' (.resp c o))
    (h4 : ∀ k st p u h b st' c l o, I k st p u h b → send e insecure st p u h b = (st', .resp c l o) → Redirects c →
      R { st' with open_ := st'.open_ - 1 } .err)
    (h5 : ∀ k st p u h b st' c l o u', I k st p u h b → send e insecure st p u h b = (st', .resp c l o) → Redirects c → l ≠ [] →
      I (decide (c = 307 ∨ c = 308) && (k || e.bodyAgain)) { st' with open_ := st'.open_ - 1 } (p && decide (c = 307 ∨ c = 308)) u'
        (e.redirectHeader st'.sent u') (if decide (c = 307 ∨ c = 308) && (k || e.bodyAgain) then first else none))
    (n : Nat) (k : Bool) (st : St) (p : Bool) (u : Url) (h : Header) (b : Option Str) (hI : I k st p u h b) :
    R (loop e insecure first n k st p u h b).1 (loop e insecure first n k st p u h b).2 := by
  induction n generalizing k st p u h b with
  | zero => exact h0 _ _ _ _ _ _ hI
  | succ n ih =>
    unfold loop
    match hs : send e insecure st p u h b with
    | (st', .never) => exact h1 _ _ _ _ _ _ _ hI hs
    | (st', .fail) => exact h2 _ _ _ _ _ _ _ hI hs
    | (st', .resp c l o) =>
      dsimp only
      by_cases hc : c = 301 ∨ c = 302 ∨ c = 303 ∨ c = 307 ∨ c = 308
      · rw [if_pos hc]
        by_cases hl : l = []
        · rw [if_pos hl]; exact h3 _ _ _ _ _ _ _ _ _ _ hI hs (fun _ => hl)
        · rw [if_neg hl]
          cases hr : e.resolve u l with
          | none => exact h4 _ _ _ _ _ _ _ _ _ _ hI hs hc
          | some u' => exact ih _ _ _ _ _ _ (h5 _ _ _ _ _ _ _ _ _ _ _ hI hs hc hl)
      · rw [if_neg hc]; exact h3 _ _ _ _ _ _ _ _ _ _ hI hs (fun h => absurd h hc)

/-- A request that goes out passed the checks. -/
structure Checked (e : Env) (insecure : Bool) (s : Sent) : Prop where
  scheme : s.url.scheme = http ∨ s.url.scheme = https
  header : ∀ x ∈ s.header, validName x.1 = true ∧ validValue x.2 = true
  tls : s.url.scheme = https → insecure = true ∨ e.trusted s.url.rest = true
  ver : s.verified = decide (s.url.scheme = https ∧ insecure = false)

theorem send_cases (e : Env) (insecure : Bool) (st : St) (p : Bool) (u : Url) (h : Header) (b : Option Str) (st' : St) (r : Reply)
    (hs : send e insecure st p u h b = (st', r)) :
    (st' = st ∧ r = .fail) ∨
    ∃ v, Checked e insecure ⟨p, u, h, b, v⟩ ∧ e.reply st.sent ⟨p, u, h, b, v⟩ = r ∧ st'.sent = st.sent ++ [⟨p, u, h, b, v⟩] ∧
      st'.open_ = st.open_ + (match r with | .resp _ _ _ => 1 | _ => 0) := by
  unfold send at hs
  split at hs
  · left; cases hs; exact ⟨rfl, rfl⟩
  · rename_i hc1
    split at hs
    · left; cases hs; exact ⟨rfl, rfl⟩
    · rename_i hc2
      split at hs
      · left; cases hs; exact ⟨rfl, rfl⟩
      · split at hs
        · left; cases hs; exact ⟨rfl, rfl⟩
        · rename_i hc4
          right
          refine ⟨decide (u.scheme = https ∧ insecure = false), ⟨?_, ?_, ?_, rfl⟩, ?_⟩
          · by_cases h' : u.scheme = http
            · exact .inl h'
            · exact .inr (Decidable.byContradiction fun h'' => hc1 ⟨h', h''⟩)
          · intro x hx
            simp only [Bool.not_eq_true, Bool.not_eq_false', List.all_eq_true, Bool.and_eq_true] at hc2
            exact hc2 x hx
          · intro hh
            dsimp only at hh ⊢
            cases hi : insecure with
            | true => exact .inl rfl
            | false =>
              right
              cases ht : e.trusted u.rest with
              | true => rfl
              | false => exact absurd ⟨hh, hi, ht⟩ hc4
          · dsimp only at hs
            match hr : e.reply st.sent ⟨p, u, h, b, decide (u.scheme = https ∧ insecure = false)⟩ with
            | .resp c l o => rw [hr] at hs; cases hs; exact ⟨rfl, rfl, rfl⟩
            | .fail => rw [hr] at hs; cases hs; exact ⟨rfl, rfl, rfl⟩
            | .never => rw [hr] at hs; cases hs; exact ⟨rfl, rfl, rfl⟩

/-- The requests of a call are those before it and then checked ones. -/
theorem loop_checked (e : Env) (insecure : Bool) (first : Option Str) (n : Nat) (k : Bool) (st : St) (p : Bool) (u : Url) (h : Header) (b : Option Str)
    (hI : ∀ s ∈ st.sent, Checked e insecure s) : ∀ s ∈ (loop e insecure first n k st p u h b).1.sent, Checked e insecure s := by
  have key : ∀ (st : St) (p : Bool) (u : Url) (h : Header) (b : Option Str) (st' : St) (r : Reply),
      (∀ s ∈ st.sent, Checked e insecure s) → send e insecure st p u h b = (st', r) → ∀ s ∈ st'.sent, Checked e insecure s := by
    intro st p u h b st' r hI hs s hm
    rcases send_cases _ _ _ _ _ _ _ _ _ hs with ⟨h1, _⟩ | ⟨v, h1, _, h2, _⟩
    · subst h1; exact hI s hm
    · rw [h2] at hm
      rcases List.mem_append.mp hm with h3 | h3
      · exact hI s h3
      · rw [List.mem_singleton.mp h3]; exact h1
  exact loop_ind e insecure first (fun _ st _ _ _ _ => ∀ s ∈ st.sent, Checked e insecure s) (fun st _ => ∀ s ∈ st.sent, Checked e insecure s)
    (fun _ _ _ _ _ _ h => h) (fun _ _ _ _ _ _ _ h hs => key _ _ _ _ _ _ _ h hs) (fun _ _ _ _ _ _ _ h hs => key _ _ _ _ _ _ _ h hs)
    (fun _ _ _ _ _ _ _ _ _ _ h hs _ => key _ _ _ _ _ _ _ h hs)
    (fun _ _ _ _ _ _ _ _ _ _ h hs _ => (by have := key _ _ _ _ _ _ _ h hs; exact this))
    (fun _ _ _ _ _ _ _ _ _ _ _ h hs _ _ => (by have := key _ _ _ _ _ _ _ h hs; exact this)) n k st p u h b hI

/-- With `InsecureSkipVerify` certificates do not matter. -/
theorem send_insecure (e : Env) (t : Str → Bool) (st : St) (p : Bool) (u : Url) (h : Header) (b : Option Str) :
    send { e with trusted := t } true st p u h b = send e true st p u h b := by
  unfold send; simp

theorem loop_insecure (e : Env) (t : Str → Bool) (first : Option Str) (n : Nat) (k : Bool) (st : St) (p : Bool) (u : Url) (h : Header) (b : Option Str) :
    loop { e with trusted := t } true first n k st p u h b = loop e true first n k st p u h b := by
  induction n generalizing k st p u h b with
  | zero => rfl
  | succ n ih =>
    unfold loop
    rw [send_insecure]
    match send e true st p u h b with
    | (_, .never) => rfl
    | (_, .fail) => rfl
    | (st', .resp c l o) =>
      dsimp only
      split
      · split
        · rfl
        · cases e.resolve u l with
          | none => rfl
          | some u' => exact ih _ _ _ _ _ _
      · rfl

/-- A POST has the first body, and until a redirect leaves it out every request has. -/
theorem loop_post (e : Env) (insecure : Bool) (first : Option Str) (n : Nat) (u : Url) (h : Header) :
    ∀ s ∈ (loop e insecure first n true ⟨[], 0⟩ true u h first).1.sent, s.post = true → s.body = first := by
  have key : ∀ (k : Bool) (st : St) (p : Bool) (u : Url) (h : Header) (b : Option Str) (st' : St) (r : Reply),
      ((∀ s ∈ st.sent, s.post = true → s.body = first) ∧ (p = true → k = true ∧ b = first)) → send e insecure st p u h b = (st', r) →
      ∀ s ∈ st'.sent, s.post = true → s.body = first := by
    intro k st p u h b st' r hI hs s hm hp
    rcases send_cases _ _ _ _ _ _ _ _ _ hs with ⟨h1, _⟩ | ⟨v, h1, _, h2, _⟩
    · subst h1; exact hI.1 s hm hp
    · rw [h2] at hm
      rcases List.mem_append.mp hm with h3 | h3
      · exact hI.1 s h3 hp
      · rw [List.mem_singleton.mp h3] at hp ⊢; exact (hI.2 hp).2
  refine loop_ind e insecure first (fun k st p _ _ b => (∀ s ∈ st.sent, s.post = true → s.body = first) ∧ (p = true → k = true ∧ b = first))
    (fun st _ => ∀ s ∈ st.sent, s.post = true → s.body = first)
    (fun _ _ _ _ _ _ h => h.1) (fun _ _ _ _ _ _ _ h hs => key _ _ _ _ _ _ _ _ h hs) (fun _ _ _ _ _ _ _ h hs => key _ _ _ _ _ _ _ _ h hs)
    (fun _ _ _ _ _ _ _ _ _ _ h hs _ => key _ _ _ _ _ _ _ _ h hs)
    (fun _ _ _ _ _ _ _ _ _ _ h hs _ => (by have := key _ _ _ _ _ _ _ _ h hs; exact this))
    ?_ n true ⟨[], 0⟩ true u h first ⟨by simp, fun _ => ⟨rfl, rfl⟩⟩
  intro k st p u h b st' c l o u' hI hs hc hl
  have hk := key _ _ _ _ _ _ _ _ hI hs
  refine ⟨hk, ?_⟩
  intro hp
  simp only [Bool.and_eq_true] at hp
  have := (hI.2 hp.1).1
  subst this
  simp [hp.2]

/-- The outcome is the last reply. -/
theorem loop_last (e : Env) (insecure : Bool) (first : Option Str) (n : Nat) (k : Bool) (st : St) (p : Bool) (u : Url) (h : Header) (b : Option Str)
    (c : Nat) (o : Body) (hr : (loop e insecure first n k st p u h b).2 = .resp c o) :
    ∃ pre s l, (loop e insecure first n k st p u h b).1.sent = pre ++ [s] ∧ e.reply pre s = .resp c l o ∧ (Redirects c → l = []) := by
  refine loop_ind e insecure first (fun _ _ _ _ _ _ => True)
    (fun st r => ∀ c o, r = .resp c o → ∃ pre s l, st.sent = pre ++ [s] ∧ e.reply pre s = .resp c l o ∧ (Redirects c → l = []))
    (fun _ _ _ _ _ _ _ => nofun) (fun _ _ _ _ _ _ _ _ _ => nofun) (fun _ _ _ _ _ _ _ _ _ => nofun) ?_
    (fun _ _ _ _ _ _ _ _ _ _ _ _ _ => nofun) (fun _ _ _ _ _ _ _ _ _ _ _ _ _ _ _ => trivial) n k st p u h b trivial c o hr
  intro k st p u h b st' c l o _ hs hl c' o' he
  cases he
  rcases send_cases _ _ _ _ _ _ _ _ _ hs with ⟨_, h1⟩ | ⟨v, _, h1, h2, _⟩
  · cases h1
  · exact ⟨_, _, l, h2, h1, hl⟩

/-- How many bodies are open: one for a response, none otherwise. -/
theorem loop_open (e : Env) (insecure : Bool) (first : Option Str) (n : Nat) (k : Bool) (st : St) (p : Bool) (u : Url) (h : Header) (b : Option Str)
    (h0 : st.open_ = 0) :
    (loop e insecure first n k st p u h b).1.open_ = (match (loop e insecure first n k st p u h b).2 with | .resp _ _ => 1 | _ => 0) := by
  have key : ∀ (st : St) (p : Bool) (u : Url) (h : Header) (b : Option Str) (st' : St) (r : Reply), st.open_ = 0 →
      send e insecure st p u h b = (st', r) → st'.open_ = (match r with | .resp _ _ _ => 1 | _ => 0) := by
    intro st p u h b st' r h0 hs
    rcases send_cases _ _ _ _ _ _ _ _ _ hs with ⟨h1, h2⟩ | ⟨v, _, _, _, h2⟩
    · subst h1 h2; exact h0
    · rw [h2, h0]; cases r <;> rfl
  refine loop_ind e insecure first (fun _ st _ _ _ _ => st.open_ = 0)
    (fun st r => st.open_ = (match r with | .resp _ _ => 1 | _ => 0))
    (fun _ _ _ _ _ _ h => h) (fun _ _ _ _ _ _ _ h hs => key _ _ _ _ _ _ _ h hs) (fun _ _ _ _ _ _ _ h hs => key _ _ _ _ _ _ _ h hs)
    (fun _ _ _ _ _ _ _ _ _ _ h hs _ => key _ _ _ _ _ _ _ h hs) ?_ ?_ n k st p u h b h0
  · intro k st p u h b st' c l o h0 hs _
    have := key _ _ _ _ _ _ _ h0 hs
    dsimp only at this ⊢
    omega
  · intro k st p u h b st' c l o u' h0 hs _ _
    have := key _ _ _ _ _ _ _ h0 hs
    dsimp only at this ⊢
    omega

/-- `n` requests at most. -/
theorem loop_count (e : Env) (insecure : Bool) (first : Option Str) (n : Nat) (k : Bool) (st : St) (p : Bool) (u : Url) (h : Header) (b : Option Str) :
    (loop e insecure first n k st p u h b).1.sent.length ≤ st.sent.length + n := by
  have key : ∀ (st : St) (p : Bool) (u : Url) (h : Header) (b : Option Str) (st' : St) (r : Reply),
      send e insecure st p u h b = (st', r) → st'.sent.length ≤ st.sent.length + 1 := by
    intro st p u h b st' r hs
    rcases send_cases _ _ _ _ _ _ _ _ _ hs with ⟨h1, h2⟩ | ⟨v, _, _, h2, _⟩
    · subst h1; omega
    · rw [h2]; simp
  induction n generalizing k st p u h b with
  | zero => exact Nat.le_refl _
  | succ n ih =>
    unfold loop
    match hs : send e insecure st p u h b with
    | (st', .never) => have := key _ _ _ _ _ _ _ hs; dsimp only; omega
    | (st', .fail) => have := key _ _ _ _ _ _ _ hs; dsimp only; omega
    | (st', .resp c l o) =>
      have := key _ _ _ _ _ _ _ hs
      dsimp only
      split
      · split
        · dsimp only; omega
        · cases e.resolve u l with
          | none => dsimp only; omega
          | some u' => refine Nat.le_trans (ih _ _ _ _ _ _) ?_; dsimp only; omega
      · dsimp only; omega

/-- A call that does not end waits for a reply. -/
theorem loop_never (e : Env) (insecure : Bool) (first : Option Str) (n : Nat) (k : Bool) (st : St) (p : Bool) (u : Url) (h : Header) (b : Option Str)
    (hr : (loop e insecure first n k st p u h b).2 = .never) :
    ∃ pre s, (loop e insecure first n k st p u h b).1.sent = pre ++ [s] ∧ e.reply pre s = .never := by
  refine loop_ind e insecure first (fun _ _ _ _ _ _ => True)
    (fun st r => r = .never → ∃ pre s, st.sent = pre ++ [s] ∧ e.reply pre s = .never)
    (fun _ _ _ _ _ _ _ => nofun) ?_ (fun _ _ _ _ _ _ _ _ _ => nofun) (fun _ _ _ _ _ _ _ _ _ _ _ _ _ => nofun)
    (fun _ _ _ _ _ _ _ _ _ _ _ _ _ => nofun) (fun _ _ _ _ _ _ _ _ _ _ _ _ _ _ _ => trivial) n k st p u h b trivial hr
  intro k st p u h b st' _ hs _
  rcases send_cases _ _ _ _ _ _ _ _ _ hs with ⟨_, h1⟩ | ⟨v, _, h1, h2, _⟩
  · cases h1
  · exact ⟨_, _, h2, h1⟩

/-- The first request of a call. -/
theorem loop_first (e : Env) (insecure : Bool) (first : Option Str) (n : Nat) (k : Bool) (p : Bool) (u : Url) (h : Header) (b : Option Str) (s : Sent)
    (hs : (loop e insecure first n k ⟨[], 0⟩ p u h b).1.sent.head? = some s) : s.post = p ∧ s.url = u ∧ s.header = h ∧ s.body = b := by
  have grow : ∀ n k (st : St) p u h b (x : Sent), st.sent.head? = some x → (loop e insecure first n k st p u h b).1.sent.head? = some x := by
    intro n k st p u h b x hx
    have key : ∀ (st : St) (p : Bool) (u : Url) (h : Header) (b : Option Str) (st' : St) (r : Reply), st.sent.head? = some x →
        send e insecure st p u h b = (st', r) → st'.sent.head? = some x := by
      intro st p u h b st' r hx hs
      rcases send_cases _ _ _ _ _ _ _ _ _ hs with ⟨h1, _⟩ | ⟨v, h1, _, h2, _⟩
      · subst h1; exact hx
      · rw [h2, List.head?_append, hx]; rfl
    exact loop_ind e insecure first (fun _ st _ _ _ _ => st.sent.head? = some x) (fun st _ => st.sent.head? = some x)
      (fun _ _ _ _ _ _ h => h) (fun _ _ _ _ _ _ _ h hs => key _ _ _ _ _ _ _ h hs) (fun _ _ _ _ _ _ _ h hs => key _ _ _ _ _ _ _ h hs)
      (fun _ _ _ _ _ _ _ _ _ _ h hs _ => key _ _ _ _ _ _ _ h hs)
      (fun _ _ _ _ _ _ _ _ _ _ h hs _ => (by have := key _ _ _ _ _ _ _ h hs; exact this))
      (fun _ _ _ _ _ _ _ _ _ _ _ h hs _ _ => (by have := key _ _ _ _ _ _ _ h hs; exact this)) n k st p u h b hx
  cases n with
  | zero => simp [loop] at hs
  | succ n =>
    have base : ∀ st' r, send e insecure ⟨[], 0⟩ p u h b = (st', r) → (st'.sent = [] ∧ r = .fail) ∨ ∃ v, st'.sent.head? = some ⟨p, u, h, b, v⟩ := by
      intro st' r hs
      rcases send_cases _ _ _ _ _ _ _ _ _ hs with ⟨h1, h2⟩ | ⟨v, _, _, h2, _⟩
      · subst h1; exact .inl ⟨rfl, h2⟩
      · right; exact ⟨v, by rw [h2]; rfl⟩
    unfold loop at hs
    have fin : ∀ st' : St, (∃ v, st'.sent.head? = some ⟨p, u, h, b, v⟩) → st'.sent.head? = some s → s.post = p ∧ s.url = u ∧ s.header = h ∧ s.body = b := by
      rintro st' ⟨v, hv⟩ h'
      rw [hv] at h'
      cases h'
      exact ⟨rfl, rfl, rfl, rfl⟩
    match hsend : send e insecure ⟨[], 0⟩ p u h b with
    | (st', .never) =>
      rw [hsend] at hs
      rcases base _ _ hsend with ⟨_, h2⟩ | hv
      · cases h2
      · exact fin st' hv hs
    | (st', .fail) =>
      rw [hsend] at hs
      rcases base _ _ hsend with ⟨h1, h2⟩ | hv
      · dsimp only at hs; rw [h1] at hs; cases hs
      · exact fin st' hv hs
    | (st', .resp c l o) =>
      rw [hsend] at hs
      rcases base _ _ hsend with ⟨_, h2⟩ | hv
      · cases h2
      · dsimp only at hs
        split at hs
        · split at hs
          · exact fin st' hv hs
          · cases hres : e.resolve u l with
            | none => rw [hres] at hs; exact fin st' hv hs
            | some u' =>
              rw [hres] at hs
              dsimp only at hs
              obtain ⟨v, hv'⟩ := hv
              have := grow n (decide (c = 307 ∨ c = 308) && (k || e.bodyAgain)) { st' with open_ := st'.open_ - 1 } (p && decide (c = 307 ∨ c = 308)) u'
                (e.redirectHeader st'.sent u') (if decide (c = 307 ∨ c = 308) && (k || e.bodyAgain) then first else none) ⟨p, u, h, b, v⟩ hv'
              rw [this] at hs
              cases hs
              exact ⟨rfl, rfl, rfl, rfl⟩
        · exact fin st' hv hs

/-- One of the replies to these requests was a redirect that leaves out the body. -/
def Dropped (e : Env) (sent : List Sent) : Prop :=
  ∃ pre s suf c l o, sent = pre ++ s :: suf ∧ e.reply pre s = .resp c l o ∧ (c = 301 ∨ c = 302 ∨ c = 303)

theorem Dropped.append {e : Env} {l l' : List Sent} (h : Dropped e l) : Dropped e (l ++ l') := by
  obtain ⟨pre, s, suf, c, lo, o, h1, h2⟩ := h
  exact ⟨pre, s, suf ++ l', c, lo, o, by rw [h1]; simp, h2⟩

/-- As long as no redirect leaves out the body the method stays. -/
theorem loop_kept (e : Env) (insecure : Bool) (first : Option Str) (n : Nat) (u : Url) (h : Header) (b : Option Str) :
    (∀ s ∈ (loop e insecure first n true ⟨[], 0⟩ true u h b).1.sent, s.post = true) ∨
      Dropped e (loop e insecure first n true ⟨[], 0⟩ true u h b).1.sent := by
  have key : ∀ (st : St) (p : Bool) (u : Url) (h : Header) (b : Option Str) (st' : St) (r : Reply),
      (((∀ s ∈ st.sent, s.post = true) ∧ p = true) ∨ Dropped e st.sent) → send e insecure st p u h b = (st', r) →
      (∀ s ∈ st'.sent, s.post = true) ∨ Dropped e st'.sent := by
    intro st p u h b st' r hI hs
    rcases send_cases _ _ _ _ _ _ _ _ _ hs with ⟨h1, _⟩ | ⟨v, h1, _, h2, _⟩
    · subst h1; exact hI.imp (fun h => h.1) id
    · rw [h2]
      rcases hI with hI | hI
      · left
        intro s hm
        rcases List.mem_append.mp hm with h3 | h3
        · exact hI.1 s h3
        · rw [List.mem_singleton.mp h3]; exact hI.2
      · exact .inr hI.append
  refine loop_ind e insecure first (fun _ st p _ _ _ => ((∀ s ∈ st.sent, s.post = true) ∧ p = true) ∨ Dropped e st.sent)
    (fun st _ => (∀ s ∈ st.sent, s.post = true) ∨ Dropped e st.sent)
    (fun _ _ _ _ _ _ h => h.imp (fun h => h.1) id) (fun _ _ _ _ _ _ _ h hs => key _ _ _ _ _ _ _ h hs)
    (fun _ _ _ _ _ _ _ h hs => key _ _ _ _ _ _ _ h hs) (fun _ _ _ _ _ _ _ _ _ _ h hs _ => key _ _ _ _ _ _ _ h hs)
    (fun _ _ _ _ _ _ _ _ _ _ h hs _ => (by have := key _ _ _ _ _ _ _ h hs; exact this))
    ?_ n true ⟨[], 0⟩ true u h b (.inl ⟨by simp, rfl⟩)
  intro k st p u h b st' c l o u' hI hs hc hl
  have hk := key _ _ _ _ _ _ _ hI hs
  rcases hI with hI | hI
  · rcases send_cases _ _ _ _ _ _ _ _ _ hs with ⟨_, h1⟩ | ⟨v, _, h1, h2, _⟩
    · cases h1
    · by_cases hc' : c = 301 ∨ c = 302 ∨ c = 303
      · right
        exact ⟨st.sent, _, [], c, l, o, h2, h1, hc'⟩
      · rcases hk with hk | hk
        · left
          refine ⟨hk, ?_⟩
          unfold Redirects at hc
          rw [hI.2]
          simp
          omega
        · exact .inr hk
  · right
    rcases send_cases _ _ _ _ _ _ _ _ _ hs with ⟨_, h1⟩ | ⟨v, _, h1, h2, _⟩
    · cases h1
    · show Dropped e st'.sent
      rw [h2]; exact hI.append

/-! ## Headers -/

theorem all8 {P : UInt8 → Prop} (h : ∀ i : Fin 256, P (UInt8.ofNat i.val)) (b : UInt8) : P b := by
  have := h ⟨b.toNat, b.toNat_lt⟩
  simpa using this

/-- The same name but for the case of letters. -/
theorem canonLoop_lower (up : Bool) (k : Str) : (canonLoop up k).map lower = k.map lower := by
  have hu : ∀ b : UInt8, lower (upper b) = lower b := all8 (by decide +kernel)
  have hl : ∀ b : UInt8, lower (lower b) = lower b := all8 (by decide +kernel)
  induction k generalizing up with
  | nil => rfl
  | cons b r ih =>
    simp only [canonLoop, List.map_cons, ih]
    cases up
    · simp [hl]
    · simp [hu]

theorem canonLoop_congr (up : Bool) (k k' : Str) (h : k.map lower = k'.map lower) : canonLoop up k = canonLoop up k' := by
  have hu : ∀ b : UInt8, upper (lower b) = upper b := all8 (by decide +kernel)
  have hl : ∀ b : UInt8, lower (lower b) = lower b := all8 (by decide +kernel)
  have hd : ∀ b : UInt8, (lower b == 45) = (b == 45) := all8 (by decide +kernel)
  induction k generalizing up k' with
  | nil => cases k' with
    | nil => rfl
    | cons _ _ => simp at h
  | cons b r ih => cases k' with
    | nil => simp at h
    | cons b' r' =>
      simp only [List.map_cons, List.cons.injEq] at h
      simp only [canonLoop]
      have e1 : (b == 45) = (b' == 45) := by rw [← hd b, ← hd b', h.1]
      have e2 : upper b = upper b' := by rw [← hu b, ← hu b', h.1]
      rw [e1, e2, h.1, ih _ _ h.2]

theorem canon_lower (k : Str) : (canon k).map lower = k.map lower := by
  unfold canon
  split
  · exact canonLoop_lower _ _
  · rfl

theorem canon_eq_same (k k' : Str) (h : canon k = canon k') : k.map lower = k'.map lower := by
  rw [← canon_lower k, h, canon_lower]

theorem set_new (h : Header) (k v : Str) (hn : ∀ x ∈ h, x.1 ≠ canon k) : h.set k v = (canon k, v) :: h := by
  unfold Header.set
  rw [List.filter_eq_self.mpr]
  intro x hx
  simpa using hn x hx

/-- `Set` for all entries of a map whose names differ in more than case. -/
theorem foldl_set (es : List (Str × Str)) (hn : es.Pairwise (fun x y => x.1.map lower ≠ y.1.map lower)) (h : Header)
    (hh : ∀ x ∈ h, ∀ y ∈ es, x.1.map lower ≠ y.1.map lower) :
    es.foldl (fun h x => Header.set h x.1 x.2) h = (es.map (fun x => (canon x.1, x.2))).reverse ++ h := by
  induction es generalizing h with
  | nil => rfl
  | cons y es ih =>
    have hp := List.pairwise_cons.mp hn
    rw [List.foldl_cons, set_new]
    · rw [ih hp.2]
      · simp
      · intro x hx z hz
        rcases List.mem_cons.mp hx with h1 | h1
        · rw [h1]; dsimp only; rw [canon_lower]; exact hp.1 z hz
        · exact hh x h1 z (List.mem_cons_of_mem _ hz)
    · intro x hx he
      apply hh x hx y (by simp)
      rw [he, canon_lower]

/-- The header of the request if names differ in more than case: the entries of the map and the cookie. -/
theorem reqHeader_eq (es : List (Str × Str)) (cookie : Option Str)
    (hn : (es ++ (cookie.map (fun c => (cookieKey, c))).toList).Pairwise (fun x y => x.1.map lower ≠ y.1.map lower)) :
    reqHeader es cookie = ((es ++ (cookie.map (fun c => (cookieKey, c))).toList).map (fun x => (canon x.1, x.2))).reverse := by
  unfold reqHeader
  have hp := List.pairwise_append.mp hn
  rw [foldl_set es hp.1 [] (by simp)]
  cases cookie with
  | none => simp
  | some c =>
    have hc : canon cookieKey = cookieKey := by decide +kernel
    have hnew : ∀ x ∈ (es.map (fun x => (canon x.1, x.2))).reverse, x.1 ≠ canon cookieKey := by
      intro x hx he
      rw [List.mem_reverse, List.mem_map] at hx
      obtain ⟨y, hy, rfl⟩ := hx
      exact hp.2.2 y hy (cookieKey, c) (by simp) (canon_eq_same _ _ he)
    have hg : Header.get (es.map (fun x => (canon x.1, x.2))).reverse cookieKey = none := by
      unfold Header.get
      rw [List.lookup_eq_none_iff]
      intro x hx
      have := hnew x hx
      rw [hc] at this
      simpa using fun h => this h.symm
    dsimp only
    rw [List.append_nil]
    unfold addCookie
    rw [hg]
    dsimp only
    rw [set_new _ _ _ hnew]
    simp

end Gofer.Post
