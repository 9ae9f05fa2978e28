import Verif.Proof.KeyStoreDisk
import Verif.Props.KeyStoreMany
/-! # Properties C193 and C194: the credential store when the disk fails and when other programs touch the key file -/
namespace Gofer.Props.KeyStoreDisk
open Gofer.KeyStoreDisk Gofer.KeyBean Gofer.KeyStore
open Gofer.KeyStoreMany (Faithful body body_out NoNil)
open Gofer.Spec.KeyBean (User)
open Gofer.Spec.KeyStore hiding Bytes
open Gofer.Spec.Codec (Codec)
open Gofer.Props.KeyStore (anyPick anyPick_picks)
open Gofer.Props.KeyStoreMany (plain plain_faithful beanOf beanOf_fits)

theorem start_same (c : Codec) (limit : Nat) (file : Bytes) : (start c limit file).kb = KeyStore.load c limit file := loadAdmin_same _ rfl

theorem start_noNil (c : Codec) (limit : Nat) (file : Bytes) : NoNil (start c limit file).kb := noNil_load _

/-! ### C193 -/

/-- C193, as stated: if all writes of the key file go well but that of the last call, a process started afterwards finds what the store held before that call or what it holds
after it. -/
def C193_claim : Prop := ∀ (c : Codec), Faithful c → ∀ (limit : Nat), limit < 2 ^ 31 → ∀ (digest : Bytes → Bytes) (file : Bytes) (as : List Act) (op : Op) (pick : KB → Orders)
  (out : Out), Full (start c limit file).kb → (∀ a ∈ as, ∃ op pick, a = .call op pick .ok) → Good (as ++ [.call op pick out]) →
  Fits limit (exec c limit digest (start c limit file) as).1.kb → Fits limit (exec c limit digest (start c limit file) (as ++ [.call op pick out])).1.kb →
  found c limit digest (exec c limit digest (start c limit file) (as ++ [.call op pick out])).1 = contents (exec c limit digest (start c limit file) as).1.kb ∨
  found c limit digest (exec c limit digest (start c limit file) (as ++ [.call op pick out])).1 =
    contents (exec c limit digest (start c limit file) (as ++ [.call op pick out])).1.kb

/-- C193. Whatever goes wrong with the writes, the store itself goes on as four maps: every call is answered as the calls before it demand. So a failed write is not noticed. -/
theorem C193_memory (c : Codec) (limit : Nat) (digest : Bytes → Bytes) (file : Bytes) (hfull : Full (start c limit file).kb) (as : List Act) (hcalls : ∀ a ∈ as, isCall a)
    (hg : Good as) :
    (exec c limit digest (start c limit file) as).2.map Prod.fst = ops as ∧
    Accepts (md5Str digest) (contents (start c limit file).kb) (ops as) ((exec c limit digest (start c limit file) as).2.map Prod.snd) ∧
    contents (exec c limit digest (start c limit file) as).1.kb = after (md5Str digest) (contents (start c limit file).kb) (ops as) := by
  obtain ⟨h1, h2, h3⟩ := exec_spec (c := c) (limit := limit) (digest := digest) as (start c limit file) _ hcalls hg (rep_contents hfull (start_noNil c limit file))
  exact ⟨h1, h2, rep_eq h3⟩

/-- C193, what holds: after whatever failed writes, reloads and restarts, one `Put` whose write goes well repairs the file; a process started then finds all that the store
holds. Missing: the time between a failed write and the next one that goes well. -/
theorem C193_repair_partial (c : Codec) (hc : Faithful c) (limit : Nat) (hl : limit < 2 ^ 31) (digest : Bytes → Bytes) (file : Bytes) (before after : List Act) (op : Op)
    (pick : KB → Orders) (hop : (∃ k n p t, op = .put k n p t) ∨ ∃ k v, op = .putOther k v) (hg : Good (before ++ [.call op pick .ok])) (hf : ∀ a ∈ before, ¬ Foreign a)
    (hafter : ∀ a ∈ after, ∃ op pick out, a = .call op pick out ∧ ReadOnly op) (w : World)
    (hw : w = (exec c limit digest (start c limit file) (before ++ .call op pick .ok :: after)).1)
    (hd : (act c limit digest (exec c limit digest (start c limit file) before).1 (.call op pick .ok)).2 = some (op, .done)) (hfit : Fits limit w.kb) :
    found c limit digest w = contents w.kb := by
  have hn := noNil_exec (c := c) (limit := limit) (digest := digest) before (start_noNil c limit file) (fun op pick out hm => hg op pick out (by simp [hm]))
  have hnm := name_exec (c := c) (limit := limit) (digest := digest) before (w := start c limit file) rfl hf
  have hws : w = (act c limit digest (exec c limit digest (start c limit file) before).1 (.call op pick .ok)).1 := by
    rw [hw, exec_append]
    exact readOnly_exec after hafter
  rw [hws] at hfit ⊢
  exact saved hc hl _ hnm hn hop (hg op pick .ok (by simp)) hd hfit

/-- The file after a `Put`. -/
theorem put_file (c : Codec) (limit : Nat) (digest : Bytes → Bytes) (w : World) (op : Op) (pick : KB → Orders) (hp : Picks pick)
    (hop : (∃ k n p t, op = .put k n p t) ∨ ∃ k v, op = .putOther k v) (out : Out) (hd : (act c limit digest w (.call op pick out)).2 = some (op, .done)) :
    ∃ o, OrdersOf (act c limit digest w (.call op pick out)).1.kb o ∧ ∀ out', (act c limit digest w (.call op pick out')).1.files w.handle =
      overwrite (w.files w.handle) (KeyStore.write c (tEncode (act c limit digest w (.call op pick out)).1.kb o)) out' := by
  have hd' : (body digest pick (some w.kb) op).1 = .done := by
    have : some (op, (body digest pick (some w.kb) op).1) = some (op, Res.done) := hd
    simpa using this
  obtain ⟨bs, hbs⟩ := put_out digest pick w.kb op hop hd'
  obtain ⟨kb, o, e, ho, hb⟩ := (body_out digest hp (some w.kb) op).1 bs hbs
  have hk := call_kb (c := c) (limit := limit) (digest := digest) w op pick out
  rw [e] at hk
  have hk := Option.some.inj hk
  rw [← hk]
  refine ⟨o, ho, fun out' => ?_⟩
  simp only [act, hbs, setFile, if_true, hb]

/-- C193. A full disk: if the file is truncated and nothing is written, a process started afterwards finds nothing at all, whatever the store held. -/
theorem C193_all_lost (c : Codec) (limit : Nat) (digest : Bytes → Bytes) (w : World) (hw : w.name = some w.handle) (op : Op) (pick : KB → Orders) (hp : Picks pick)
    (hop : (∃ k n p t, op = .put k n p t) ∨ ∃ k v, op = .putOther k v) (hd : (act c limit digest w (.call op pick (.bad true 0))).2 = some (op, .done)) :
    found c limit digest (act c limit digest w (.call op pick (.bad true 0))).1 = Maps.empty := by
  obtain ⟨o, _, h⟩ := put_file c limit digest w op pick hp hop _ hd
  have hname : (act c limit digest w (.call op pick (.bad true 0))).1.name = some w.handle := hw
  rw [found_eq, hname]
  simp only [h, overwrite, List.take_zero, if_true, List.append_nil]
  exact (Gofer.Props.KeyStore.C39_fresh c limit [] (.inl rfl)).2

/-- A reader that gets out of a beginning of the written file at most a beginning of the contents. -/
def Streaming (c : Codec) : Prop :=
  ∀ bs p, p <+: KeyStore.write c bs → p ≠ KeyStore.write c bs → KeyStore.read c p = none ∨ ∃ q, KeyStore.read c p = some q ∧ q <+: bs ∧ q ≠ bs

/-- C193. The same wherever in the text the write stops. -/
theorem C193_short (c : Codec) (hc : Streaming c) (limit : Nat) (hl : limit < 2 ^ 31) (digest : Bytes → Bytes) (w : World) (hw : w.name = some w.handle) (op : Op) (pick : KB → Orders)
    (hp : Picks pick) (hop : (∃ k n p t, op = .put k n p t) ∨ ∃ k v, op = .putOther k v) (n : Nat)
    (hd : (act c limit digest w (.call op pick (.bad true n))).2 = some (op, .done)) (hfit : Fits limit (act c limit digest w (.call op pick (.bad true n))).1.kb)
    (hs : (act c limit digest w (.call op pick (.bad true n))).1.files w.handle ≠ (act c limit digest w (.call op pick .ok)).1.files w.handle) :
    found c limit digest (act c limit digest w (.call op pick (.bad true n))).1 = Maps.empty := by
  obtain ⟨o, ho, h⟩ := put_file c limit digest w op pick hp hop _ hd
  have hname : (act c limit digest w (.call op pick (.bad true n))).1.name = some w.handle := hw
  rw [found_eq, hname]
  rw [h, h] at hs
  simp only [h]
  simp only [overwrite, if_true, List.append_nil] at hs ⊢
  refine (Gofer.Props.KeyStore.C39_fresh c limit _ ?_).2
  rcases hc _ _ (List.take_prefix n _) hs with hr | ⟨q, hr, hq, hne⟩
  · left
    simp only [KeyStore.read] at hr
    split at hr
    · split at hr <;> cases hr
    · exact List.eq_nil_of_length_eq_zero (by omega)
  · exact .inr ⟨q, hr, tDecode_tEncode_prefix hl _ o ho hfit q hq hne⟩

theorem plain_streaming : Streaming plain := by
  intro bs p hp hne
  have hw : KeyStore.write plain bs = 1 :: bs := by simp [KeyStore.write, Gofer.Compress.utilZlib, plain]
  rw [hw] at hp hne
  cases p with
  | nil => exact .inl rfl
  | cons x q =>
    rw [List.cons_prefix_cons] at hp
    obtain ⟨rfl, hq⟩ := hp
    exact .inr ⟨q, rfl, hq, fun h => hne (by rw [h])⟩

/-- The user "a" is put, then the disk is full when "b" is. -/
def fullDisk : List Act := [.call (.put .admin [97] [1] 1) anyPick .ok]

theorem fullDisk_kb : (exec plain 100 (fun _ => [7]) (start plain 100 []) fullDisk).1.kb = beanOf 97 1 := rfl

theorem start_nil_full : Full (start plain 100 []).kb := by
  rw [start_same]; exact (Gofer.Props.KeyStore.C39_fresh plain 100 [] (.inl rfl)).1

/-- C193 is false: a failed write of the second user loses the first one too. -/
theorem C193_claim_false : ¬ C193_claim := by
  intro h
  have hfit2 : Fits 100 (exec plain 100 (fun _ => [7]) (start plain 100 []) (fullDisk ++ [.call (.put .admin [98] [2] 2) anyPick (.bad true 0)])).1.kb := by
    show Fits 100 (setMap (beanOf 97 1) .admin ((AMap.empty.store [97] (some ⟨[97], [48, 55], 1⟩)).store [98] (some ⟨[98], [48, 55], 2⟩)))
    constructor <;> intro m hm <;> simp only [beanOf, setMap, fresh, Option.some.injEq] at hm <;> subst hm
    · exact ⟨by decide, by decide⟩
    · exact ⟨by decide, by simp [AMap.empty]⟩
    · exact ⟨by decide, by simp [AMap.empty]⟩
    · exact ⟨by decide, by simp [AMap.empty]⟩
  have := h plain plain_faithful 100 (by decide) (fun _ => [7]) [] fullDisk (.put .admin [98] [2] 2) anyPick (.bad true 0) start_nil_full
    (by intro a ha; simp [fullDisk] at ha; exact ⟨_, _, ha⟩)
    (by
      intro op pick out hm
      simp [fullDisk] at hm
      rcases hm with ⟨_, rfl, _⟩ | ⟨_, rfl, _⟩ <;> exact anyPick_picks)
    (by rw [fullDisk_kb]; exact beanOf_fits 97 1) hfit2
  have hlost : found plain 100 (fun _ => [7]) (exec plain 100 (fun _ => [7]) (start plain 100 []) (fullDisk ++ [.call (.put .admin [98] [2] 2) anyPick (.bad true 0)])).1 =
      Maps.empty := by
    rw [exec_append]
    exact C193_all_lost plain 100 (fun _ => [7]) (exec plain 100 (fun _ => [7]) (start plain 100 []) fullDisk).1 rfl (.put .admin [98] [2] 2) anyPick anyPick_picks
      (.inl ⟨_, _, _, _, rfl⟩) rfl
  rw [hlost] at this
  rcases this with e | e
  · have := congrArg (fun m => m.user .admin [97]) e
    simp [Maps.empty, contents, fullDisk_kb, beanOf, setMap, mapOf, loadOf] at this
  · have := congrArg (fun m => m.user .admin [98]) e
    have hk : (exec plain 100 (fun _ => [7]) (start plain 100 []) (fullDisk ++ [.call (.put .admin [98] [2] 2) anyPick (.bad true 0)])).1.kb =
      setMap (beanOf 97 1) .admin ((AMap.empty.store [97] (some ⟨[97], [48, 55], 1⟩)).store [98] (some ⟨[98], [48, 55], 2⟩)) := rfl
    simp [Maps.empty, contents, hk, setMap, mapOf, loadOf] at this

/-! ### C194 -/

/-- C194, as stated: whatever other programs do to the key file, after a `Put` whose write goes well a process started then finds the user. -/
def C194_claim : Prop := ∀ (c : Codec), Faithful c → ∀ (limit : Nat), limit < 2 ^ 31 → ∀ (digest : Bytes → Bytes) (file : Bytes) (as : List Act) (k : Kind) (n p : Bytes)
  (t : UInt8) (pick : KB → Orders), Good (as ++ [.call (.put k n p t) pick .ok]) → ∀ w, w = (exec c limit digest (start c limit file) (as ++ [.call (.put k n p t) pick .ok])).1 →
  (act c limit digest (exec c limit digest (start c limit file) as).1 (.call (.put k n p t) pick .ok)).2 = some (.put k n p t, .done) → Fits limit w.kb →
  (found c limit digest w).user k n = some ⟨n, md5Str digest p, t⟩

theorem start_used (c : Codec) (limit : Nat) (file : Bytes) : (start c limit file).handle < (start c limit file).next ∧
    ∀ f, (start c limit file).name = some f → f < (start c limit file).next :=
  ⟨Nat.zero_lt_one, fun f hf => by rw [← Option.some.inj hf]; exact Nat.zero_lt_one⟩

/-- C194. Once another program has renamed a file over the key file, nothing that the running process does reaches the file under the name: a process started later finds what
that file holds. -/
theorem C194_replaced (c : Codec) (limit : Nat) (digest : Bytes → Bytes) (file bs : Bytes) (before since : List Act) (hs : ∀ a ∈ since, isCall a ∨ a = .load) :
    found c limit digest (exec c limit digest (start c limit file) (before ++ .replace bs :: since)).1 = contents (KeyStore.load c limit bs) := by
  have hu := handle_exec (c := c) (limit := limit) (digest := digest) before (start_used c limit file)
  rw [exec_append]
  generalize (exec c limit digest (start c limit file) before).1 = v at hu
  have hm := moved_exec (c := c) (limit := limit) (digest := digest) since (w := (act c limit digest v (.replace bs)).1)
    (by
      show some v.next ≠ some v.handle
      intro e; have := Option.some.inj e; omega) hs
  rw [found_eq]
  show (match (exec c limit digest (act c limit digest v (.replace bs)).1 since).1.name with
    | none => Maps.empty
    | some f => contents (KeyStore.load c limit ((exec c limit digest (act c limit digest v (.replace bs)).1 since).1.files f))) = _
  have e : (act c limit digest v (.replace bs)).1.name = some v.next := rfl
  rw [hm.1, e]
  simp only [hm.2 _ e]
  simp [act, setFile]

/-- C194. After the key file was removed a process started later finds nothing, whatever the running process does. -/
theorem C194_removed (c : Codec) (limit : Nat) (digest : Bytes → Bytes) (file : Bytes) (before since : List Act) (hs : ∀ a ∈ since, isCall a ∨ a = .load) :
    found c limit digest (exec c limit digest (start c limit file) (before ++ .remove :: since)).1 = Maps.empty := by
  rw [exec_append]
  generalize (exec c limit digest (start c limit file) before).1 = v
  have hm := moved_exec (c := c) (limit := limit) (digest := digest) since (w := (act c limit digest v .remove).1) (by simp [act]) hs
  rw [found_eq]
  show (match (exec c limit digest (act c limit digest v .remove).1 since).1.name with
    | none => Maps.empty
    | some f => contents (KeyStore.load c limit ((exec c limit digest (act c limit digest v .remove).1 since).1.files f))) = _
  rw [hm.1]
  rfl

/-- C194, what holds: a process started since the last time another program touched the key file saves what it holds. Missing: processes that were running then. -/
theorem C194_restart_partial (c : Codec) (hc : Faithful c) (limit : Nat) (hl : limit < 2 ^ 31) (digest : Bytes → Bytes) (file : Bytes) (before since : List Act)
    (hf : ∀ a ∈ since, ¬ Foreign a) (op : Op) (pick : KB → Orders) (hop : (∃ k n p t, op = .put k n p t) ∨ ∃ k v, op = .putOther k v)
    (hg : Good (before ++ .restart :: since ++ [.call op pick .ok])) (w : World)
    (hw : w = (exec c limit digest (start c limit file) (before ++ .restart :: since ++ [.call op pick .ok])).1)
    (hd : (act c limit digest (exec c limit digest (start c limit file) (before ++ .restart :: since)).1 (.call op pick .ok)).2 = some (op, .done)) (hfit : Fits limit w.kb) :
    found c limit digest w = contents w.kb := by
  have hn := noNil_exec (c := c) (limit := limit) (digest := digest) (before ++ .restart :: since) (start_noNil c limit file)
    (fun op pick out hm => hg op pick out (by simp only [List.mem_append] at hm ⊢; exact .inl hm))
  have hnm : (exec c limit digest (start c limit file) (before ++ .restart :: since)).1.name = some (exec c limit digest (start c limit file) (before ++ .restart :: since)).1.handle := by
    rw [exec_append]
    refine name_exec (c := c) (limit := limit) (digest := digest) since ?_ hf
    show (openStore _).name = some (openStore _).handle
    unfold openStore
    split
    · assumption
    · rfl
  have hws : w = (act c limit digest (exec c limit digest (start c limit file) (before ++ .restart :: since)).1 (.call op pick .ok)).1 := by
    rw [hw, exec_append]; rfl
  rw [hws] at hfit ⊢
  exact saved hc hl _ hnm hn hop (hg op pick .ok (by simp)) hd hfit

/-- C194. A key file that cannot be read (damaged, say) gives an empty store and no error. As long as the store is only asked or told to delete, the file stays as it is. -/
theorem C194_damaged_kept (c : Codec) (limit : Nat) (digest : Bytes → Bytes) (file : Bytes) (hdam : ∃ bs, KeyStore.read c file = some bs ∧ tDecode limit bs = none) (as : List Act)
    (has : ∀ a ∈ as, ∃ op pick out, a = .call op pick out ∧ (ReadOnly op ∨ (∃ k n, op = .del k n) ∨ ∃ n, op = .delOther n)) :
    contents (start c limit file).kb = Maps.empty ∧ (exec c limit digest (start c limit file) as).1 = start c limit file := by
  have h0 : (start c limit file).kb = fresh := by
    rw [start_same]
    obtain ⟨bs, h1, h2⟩ := hdam
    simp [KeyStore.load, h1, h2]
  refine ⟨by rw [h0]; exact rep_eq rep_fresh, ?_⟩
  induction as with
  | nil => rfl
  | cons a as ih =>
    obtain ⟨op, pick, out, rfl, ho⟩ := has a (by simp)
    show (exec c limit digest (act c limit digest (start c limit file) (.call op pick out)).1 as).1 = _
    have h1 : (act c limit digest (start c limit file) (.call op pick out)).1 = start c limit file := by
      rcases ho with ho | ⟨k, n, rfl⟩ | ⟨n, rfl⟩
      · exact readOnly_act _ ho pick out
      · have : mapOf (start c limit file).kb k = some AMap.empty := by rw [h0]; cases k <;> rfl
        simp [act, body, this]
      · have : (start c limit file).kb.other = some AMap.empty := by rw [h0]; rfl
        simp [act, body, this]
    rw [h1]
    exact ih (fun b hb => has b (by simp [hb]))

/-- C194. The first `Put` then replaces the damaged file by one that holds nothing but that user. -/
theorem C194_damaged_lost (c : Codec) (hc : Faithful c) (limit : Nat) (hl : limit < 2 ^ 31) (digest : Bytes → Bytes) (file : Bytes)
    (hdam : ∃ bs, KeyStore.read c file = some bs ∧ tDecode limit bs = none) (k : Kind) (n p : Bytes) (t : UInt8) (pick : KB → Orders) (hp : Picks pick)
    (hfit : Fits limit (act c limit digest (start c limit file) (.call (.put k n p t) pick .ok)).1.kb) :
    found c limit digest (act c limit digest (start c limit file) (.call (.put k n p t) pick .ok)).1 = next (md5Str digest) Maps.empty (.put k n p t) := by
  have h0 : (start c limit file).kb = fresh := by
    rw [start_same]
    obtain ⟨bs, h1, h2⟩ := hdam
    simp [KeyStore.load, h1, h2]
  have hs := call_spec (c := c) (limit := limit) (digest := digest) (start c limit file) (m := Maps.empty) (by rw [h0]; exact rep_fresh) (.put k n p t) hp .ok
  rw [saved hc hl _ rfl (start_noNil c limit file) (.inl ⟨_, _, _, _, rfl⟩) hp
    (by
      show some (_, (body digest pick (some (start c limit file).kb) (.put k n p t)).1) = _
      rw [show (body digest pick (some (start c limit file).kb) (.put k n p t)).1 = .done from hs.1]) hfit]
  exact rep_eq hs.2

/-- C194 is false: another program renames an empty file over the key file; the user put then is not in it. -/
theorem C194_claim_false : ¬ C194_claim := by
  intro h
  have hr := C194_replaced plain 100 (fun _ => [7]) [] [] [] [.call (.put .admin [97] [1] 1) anyPick .ok] (by intro a ha; simp at ha; subst ha; exact .inl trivial)
  have := h plain plain_faithful 100 (by decide) (fun _ => [7]) [] [.replace []] .admin [97] [1] 1 anyPick
    (by intro op pick out hm; simp at hm; rw [hm.2.1]; exact anyPick_picks) _ rfl rfl (beanOf_fits 97 1)
  have e : [Act.replace []] ++ [.call (.put .admin [97] [1] 1) anyPick .ok] = [] ++ .replace [] :: [.call (.put .admin [97] [1] 1) anyPick .ok] := rfl
  rw [e, hr] at this
  have hl : KeyStore.load plain 100 [] = fresh := rfl
  rw [hl] at this
  cases this

/-! ### Concrete cases -/

/-- The second user's write fails at once, the third one's goes well: a restart finds all three. -/
example : found plain 100 (fun _ => [7]) (exec plain 100 (fun _ => [7]) (start plain 100 [])
      [.call (.put .admin [97] [1] 1) anyPick .ok, .call (.put .admin [98] [2] 2) anyPick (.bad true 0), .call (.putOther [99] [3]) anyPick .ok]).1 =
    contents (exec plain 100 (fun _ => [7]) (start plain 100 [])
      [.call (.put .admin [97] [1] 1) anyPick .ok, .call (.put .admin [98] [2] 2) anyPick (.bad true 0), .call (.putOther [99] [3]) anyPick .ok]).1.kb := by
  refine C193_repair_partial plain plain_faithful 100 (by decide) (fun _ => [7]) []
    [.call (.put .admin [97] [1] 1) anyPick .ok, .call (.put .admin [98] [2] 2) anyPick (.bad true 0)] [] (.putOther [99] [3]) anyPick (.inr ⟨_, _, rfl⟩) ?_ ?_ ?_ _ rfl rfl ?_
  · intro op pick out hm
    simp at hm
    rcases hm with ⟨_, rfl, _⟩ | ⟨_, rfl, _⟩ | ⟨_, rfl, _⟩ <;> exact anyPick_picks
  · intro a ha
    simp at ha
    rcases ha with rfl | rfl <;> simp [Foreign]
  · simp
  · show Fits 100 { setMap (beanOf 97 1) .admin ((AMap.empty.store [97] (some ⟨[97], [48, 55], 1⟩)).store [98] (some ⟨[98], [48, 55], 2⟩)) with other := some (AMap.empty.store [99] [3]) }
    constructor <;> intro m hm <;> simp only [beanOf, setMap, fresh, Option.some.injEq] at hm <;> subst hm
    · exact ⟨by decide, by decide⟩
    · exact ⟨by decide, by simp [AMap.empty]⟩
    · exact ⟨by decide, by simp [AMap.empty]⟩
    · exact ⟨by decide, by decide⟩

/-- The key file of a store with the user "a" is removed and the store loads again: it is empty, and the next `Put` overwrites what the open file still held. -/
example : let w := (exec plain 100 (fun _ => [7]) (start plain 100 []) [.call (.put .admin [97] [1] 1) anyPick .ok, .remove, .load]).1
    contents w.kb = Maps.empty ∧ w.files w.handle = KeyStore.write plain (tEncode (beanOf 97 1) (anyPick (beanOf 97 1))) :=
  ⟨rep_eq rep_fresh, rfl⟩

/-- A file that is not read: damaged in its first byte after the header. -/
example : ∃ bs, KeyStore.read plain [1, 255, 255] = some bs ∧ tDecode 100 bs = none := ⟨[255, 255], rfl, by decide +kernel⟩

end Gofer.Props.KeyStoreDisk
