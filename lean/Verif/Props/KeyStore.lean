import Verif.Proof.KeyStore
import Verif.Props.Compress

/-! # Credential store: properties C39, C40, C41 -/
namespace Gofer.Props.KeyStore
open Gofer.KeyStore Gofer.KeyBean Gofer.Compress
open Gofer.Spec.KeyBean (User)
open Gofer.Spec.KeyStore hiding Bytes
open Gofer.Spec.Codec (Codec Lawful HoldsBack)
open Gofer.Props.Compress (toy toy_lawful toy_holdsBack)

/-! ### C39 -/

/-- C39, as stated: after Load of whatever file. -/
def C39_claim : Prop := ∀ (c : Codec), Lawful c → ∀ (limit : Nat) (digest : Bytes → Bytes) (file : Bytes) (hist : List (Op × (KB → Orders))),
  AllPicks hist → Accepts (md5Str digest) (contents (load c limit file)) (hist.map Prod.fst) (run c digest ⟨load c limit file, file⟩ hist).1

/-- C39. If the loaded bean has no nil map, every history returns what four independent maps return, with
the MD5 of the password stored for it. Missing: files that decode to a bean with a nil map. -/
theorem C39_maps_partial (c : Codec) (limit : Nat) (digest : Bytes → Bytes) (file : Bytes) (hfull : Full (load c limit file))
    (hist : List (Op × (KB → Orders))) (hp : AllPicks hist) :
    Accepts (md5Str digest) (contents (load c limit file)) (hist.map Prod.fst) (run c digest ⟨load c limit file, file⟩ hist).1 ∧
    contents (run c digest ⟨load c limit file, file⟩ hist).2.kb =
      after (md5Str digest) (contents (load c limit file)) (hist.map Prod.fst) := by
  obtain ⟨h1, h2, _⟩ := run_spec c digest hist hp ⟨load c limit file, file⟩ _ (rep_contents hfull (load_noNil c limit file))
  exact ⟨h1, rep_eq h2⟩

theorem full_fresh : Full fresh := ⟨fun k => by cases k <;> rfl, rfl⟩

/-- C39. A new (empty) file, and a file that does not decode, load as four empty maps. -/
theorem C39_fresh (c : Codec) (limit : Nat) (file : Bytes) (h : file = [] ∨ ∃ bs, read c file = some bs ∧ tDecode limit bs = none) :
    Full (load c limit file) ∧ contents (load c limit file) = Maps.empty := by
  have : load c limit file = fresh := by
    rcases h with rfl | ⟨bs, hr, hd⟩
    · rfl
    · simp only [load, hr, hd]
  rw [this]
  exact ⟨full_fresh, rep_eq rep_fresh⟩

/-- C39 is false: the file with the single byte 0 is a valid bean without maps; `PutAdmin` then panics. -/
theorem C39_claim_false : ¬ C39_claim := by
  intro h
  let pick : KB → Orders := fun kb => ⟨entriesOf kb.admin, entriesOf kb.client, entriesOf kb.mq, entriesOf kb.other⟩
  have := (h toy toy_lawful 100 id [0] [(.put .admin [97] [98] 1, pick)] (by
    intro p hp
    simp only [List.mem_singleton] at hp
    subst hp
    intro kb
    constructor <;> intro m hm <;> simp [pick, hm, entriesOf])).1
  have hp : Answer (contents (load toy 100 [0])) (.put .admin [97] [98] 1) .panic := this
  simp [Answer] at hp

/-- C39. What is stored for a password is hexadecimal text twice as long as the digest. -/
theorem C39_hash_format (digest : Bytes → Bytes) (p : Bytes) :
    (md5Str digest p).length = 2 * (digest p).length ∧ ∀ b ∈ md5Str digest p, (48 ≤ b ∧ b ≤ 57) ∨ (65 ≤ b ∧ b ≤ 70) := by
  constructor
  · unfold md5Str
    induction digest p with
    | nil => rfl
    | cons x l ih => rw [List.flatMap_cons, List.length_append, ih]; simp; omega
  · intro b hb
    simp only [md5Str, List.mem_flatMap] at hb
    obtain ⟨x, _, hx⟩ := hb
    have hd : ∀ n : Fin 16, (48 ≤ hexDigit n ∧ hexDigit n ≤ 57) ∨ (65 ≤ hexDigit n ∧ hexDigit n ≤ 70) := by decide +kernel
    have h1 := hd ⟨x.toNat / 16, by have := x.toNat_lt; omega⟩
    have h2 := hd ⟨x.toNat % 16, by omega⟩
    simp only [List.mem_cons, List.not_mem_nil, or_false] at hx
    rcases hx with rfl | rfl
    · exact h1
    · exact h2

/-- Replace the password of a call. -/
def mapPwd (g : Bytes → Bytes) : Op → Op
  | .put k n p t => .put k n (g p) t
  | op => op

/-- C39. Results, memory and file depend on a password only through its digest. -/
theorem C39_only_digest (c : Codec) (digest : Bytes → Bytes) (g : Bytes → Bytes) (hg : ∀ p, digest (g p) = digest p) (s : St)
    (hist : List (Op × (KB → Orders))) :
    run c digest s (hist.map fun e => (mapPwd g e.1, e.2)) = run c digest s hist := by
  have hm : ∀ p, md5Str digest (g p) = md5Str digest p := fun p => by simp only [md5Str, hg]
  induction hist generalizing s with
  | nil => rfl
  | cons x hist ih =>
    obtain ⟨op, pick⟩ := x
    have hs : step c digest pick s (mapPwd g op) = step c digest pick s op := by
      cases op <;> simp only [mapPwd, step, hm]
    simp only [List.map_cons, run, hs, ih]

/-! ### C40 -/

/-- C40, as stated, for a store that starts with an empty file. -/
def C40_claim : Prop := ∀ (c : Codec), Lawful c → HoldsBack c → ∀ (limit : Nat), limit < 2 ^ 31 → ∀ (digest : Bytes → Bytes)
  (hist : List (Op × (KB → Orders))), AllPicks hist → Fits limit (run c digest ⟨load c limit [], []⟩ hist).2.kb →
  contents (load c limit (run c digest ⟨load c limit [], []⟩ hist).2.file) = contents (run c digest ⟨load c limit [], []⟩ hist).2.kb

theorem load_write (c : Codec) (hc : HoldsBack c) {limit : Nat} (hl : limit < 2 ^ 31) (kb : KB) (o : Orders) (ho : OrdersOf kb o)
    (hf : Fits limit kb) : load c limit (write c (tEncode kb o)) = fresh := by
  obtain ⟨p, h1, h2, h3⟩ := hc (tEncode kb o)
  have hw : write c (tEncode kb o) = c.written (tEncode kb o) := rfl
  rw [hw]
  have hd := tDecode_tEncode_prefix hl kb o ho hf p h1 (h2 (tEncode_ne_nil hl kb o ho hf))
  simp only [load, Gofer.KeyStore.read, utilUnZlib, h3]
  split
  · rename_i hr; split at hr <;> simp at hr
    rfl
  · rename_i bs hr
    split at hr
    · simp at hr; rw [← hr, hd]
    · cases hr

/-- C40, and how it fails. With a compressor that keeps data back (as zlib does), after any history from any state
without nil maps: either nothing was written, or a store that loads the file finds all maps empty. -/
theorem C40_restart_partial (c : Codec) (hc : HoldsBack c) (limit : Nat) (hl : limit < 2 ^ 31) (digest : Bytes → Bytes) (file : Bytes)
    (hfull : Full (load c limit file)) (hist : List (Op × (KB → Orders))) (hp : AllPicks hist)
    (hf : Fits limit (run c digest ⟨load c limit file, file⟩ hist).2.kb) :
    (run c digest ⟨load c limit file, file⟩ hist).2 = ⟨load c limit file, file⟩ ∨
    (Full (load c limit (run c digest ⟨load c limit file, file⟩ hist).2.file) ∧
      contents (load c limit (run c digest ⟨load c limit file, file⟩ hist).2.file) = Maps.empty) := by
  obtain ⟨_, _, h3⟩ := run_spec c digest hist hp ⟨load c limit file, file⟩ _ (rep_contents hfull (load_noNil c limit file))
  rcases h3 with h | ⟨o, ho, he⟩
  · exact Or.inl h
  · right
    rw [he, load_write c hc hl _ o ho hf]
    exact ⟨full_fresh, rep_eq rep_fresh⟩

/-- C40. In particular, whatever a store that started with an empty file holds is lost. -/
theorem C40_everything_lost_partial (c : Codec) (hc : HoldsBack c) (limit : Nat) (hl : limit < 2 ^ 31) (digest : Bytes → Bytes)
    (hist : List (Op × (KB → Orders))) (hp : AllPicks hist) (hf : Fits limit (run c digest ⟨load c limit [], []⟩ hist).2.kb)
    (hne : contents (run c digest ⟨load c limit [], []⟩ hist).2.kb ≠ Maps.empty) :
    contents (load c limit (run c digest ⟨load c limit [], []⟩ hist).2.file) = Maps.empty := by
  have hfr := C39_fresh c limit [] (Or.inl rfl)
  rcases C40_restart_partial c hc limit hl digest [] hfr.1 hist hp hf with h | h
  · rw [h] at hne; exact absurd hfr.2 hne
  · exact h.2

/-- C40. A file that holds a complete stream (as `compress.Zlib` makes it, or flushed as `compress.ZlibLevel` does) or the
plain encoding is loaded correctly; so only the writer is at fault. -/
theorem C40_reader_partial (c : Codec) (hc : Lawful c) (limit : Nat) (hl : limit < 2 ^ 31) (kb : KB) (hn : ¬ HasNil kb)
    (hf : Fits limit kb) (o : Orders) (ho : OrdersOf kb o) (file : Bytes)
    (h : file = (zlib c (tEncode kb o)).bytes ∨ file = (zlibLevel (some c) (tEncode kb o)).bytes ∨ (file = tEncode kb o ∧ c.read file = none)) :
    Same kb (load c limit file) := by
  obtain ⟨kb', e, hs⟩ := (tDecode_tEncode hl kb o ho hf []).2 hn
  rw [List.append_nil] at e
  have hne := tEncode_ne_nil hl kb o ho hf
  have hr : read c file = some (tEncode kb o) := by
    rcases h with rfl | rfl | ⟨rfl, hr⟩
    · have : 0 < (c.written (tEncode kb o) ++ c.closed (tEncode kb o)).length := by
        rw [List.length_append]; have := List.length_pos_of_ne_nil (hc.header (tEncode kb o)); omega
      change Gofer.KeyStore.read c (c.written (tEncode kb o) ++ c.closed (tEncode kb o)) = _
      unfold Gofer.KeyStore.read
      rw [if_pos this]
      simp [utilUnZlib, hc.full]
    · have : 0 < (c.written (tEncode kb o) ++ c.flushed (tEncode kb o)).length := by
        rw [List.length_append]; have := List.length_pos_of_ne_nil (hc.header (tEncode kb o)); omega
      change Gofer.KeyStore.read c (c.written (tEncode kb o) ++ c.flushed (tEncode kb o)) = _
      unfold Gofer.KeyStore.read
      rw [if_pos this]
      simp [utilUnZlib, hc.flush]
    · simp only [Gofer.KeyStore.read]
      rw [if_pos (List.length_pos_of_ne_nil hne)]
      simp [utilUnZlib, hr]
  simp only [load, hr, e]
  exact hs

/-- An order for every bean. -/
def anyPick : KB → Orders := fun kb => ⟨entriesOf kb.admin, entriesOf kb.client, entriesOf kb.mq, entriesOf kb.other⟩

theorem anyPick_picks : Picks anyPick := by
  intro kb
  constructor <;> intro m hm <;> simp [anyPick, hm, entriesOf]

/-- One admin is put. -/
def onePut : List (Op × (KB → Orders)) := [(.put .admin [97] [98] 1, anyPick)]

theorem onePut_picks : AllPicks onePut := by
  intro p hp
  simp only [onePut, List.mem_singleton] at hp
  subst hp; exact anyPick_picks

theorem onePut_kb : (run toy (fun _ => [7]) ⟨load toy 100 [], []⟩ onePut).2.kb =
    setMap fresh .admin (AMap.empty.store [97] (some ⟨[97], [48, 55], 1⟩)) := by
  rfl

theorem onePut_fits : Fits 100 (run toy (fun _ => [7]) ⟨load toy 100 [], []⟩ onePut).2.kb := by
  rw [onePut_kb]
  constructor <;> intro m hm <;> simp only [setMap, fresh, Option.some.injEq] at hm <;> subst hm
  · refine ⟨by decide, fun p hp => ?_⟩
    simp [AMap.store, AMap.empty] at hp
    rcases hp with rfl; simp
  · exact ⟨by decide, by simp [AMap.empty]⟩
  · exact ⟨by decide, by simp [AMap.empty]⟩
  · exact ⟨by decide, by simp [AMap.empty]⟩

theorem onePut_contents : (contents (run toy (fun _ => [7]) ⟨load toy 100 [], []⟩ onePut).2.kb).user .admin [97] = some ⟨[97], [48, 55], 1⟩ := by
  rw [onePut_kb]; simp [contents, setMap, mapOf, loadOf]

/-- C40 is false. -/
theorem C40_claim_false : ¬ C40_claim := by
  intro h
  have h1 := h toy toy_lawful toy_holdsBack 100 (by decide) (fun _ => [7]) onePut onePut_picks onePut_fits
  have h2 := C40_everything_lost_partial toy toy_holdsBack 100 (by decide) (fun _ => [7]) onePut onePut_picks onePut_fits (by
    intro he
    have := onePut_contents
    rw [he] at this
    cases this)
  have h3 := onePut_contents
  rw [← h1, h2] at h3
  cases h3

/-! ### C41 -/

/-- C41, as stated. -/
def C41_claim : Prop := ∀ (c : Codec), Lawful c → ∀ (old bs f : Bytes), f ∈ crashes c old bs → read c f = read c old ∨ read c f = read c (write c bs)

/-- C41. A crash leaves the old file or a prefix of the new one. Missing: that a proper prefix reads as old or new, which
is false. -/
theorem C41_prefix_partial (c : Codec) (old bs f : Bytes) : f ∈ crashes c old bs ↔ f = old ∨ f <+: write c bs := by
  simp only [crashes, List.mem_cons, List.mem_map, List.mem_range]
  constructor
  · rintro (h | ⟨n, _, rfl⟩)
    · exact Or.inl h
    · exact Or.inr (List.take_prefix _ _)
  · rintro (h | h)
    · exact Or.inl h
    · refine Or.inr ⟨f.length, ?_, ?_⟩
      · have := h.length_le; omega
      · exact (List.prefix_iff_eq_take.1 h).symm

/-- C41. For every old and new contents there is a crash point after which the file is empty: reading reports an error and
loading gives a store without users. -/
theorem C41_all_lost (c : Codec) (limit : Nat) (old bs : Bytes) :
    ∃ f ∈ crashes c old bs, read c f = none ∧ contents (load c limit f) = Maps.empty :=
  ⟨[], (C41_prefix_partial c old bs []).2 (Or.inr List.nil_prefix), rfl, (C39_fresh c limit [] (Or.inl rfl)).2⟩

/-- C41 is false. -/
theorem C41_claim_false : ¬ C41_claim := by
  intro h
  have := h toy toy_lawful (zlib toy [1, 2]).bytes [3] [] ((C41_prefix_partial _ _ _ _).2 (Or.inr List.nil_prefix))
  revert this
  decide +kernel

/-! ### Concrete cases -/
example : Full (load toy 100 []) := (C39_fresh toy 100 [] (Or.inl rfl)).1
example : ((run toy (fun _ => [171]) ⟨load toy 100 [], []⟩
    [(.put .mq [97] [98] 1, anyPick), (.get .mq [97], anyPick), (.get .admin [97], anyPick)]).1.map
      fun r => match r with | .user u => some (u.map User.pwd) | _ => none) = [none, some (some [65, 66]), some none] := by decide +kernel
example : read toy (zlib toy [1, 2]).bytes = some [1, 2] := by decide +kernel
example : md5Str (fun _ => [0, 255, 26]) [] = [48, 48, 70, 70, 49, 65] := by decide +kernel

end Gofer.Props.KeyStore
