import Verif.Debug.SubsetText
import Verif.Props.KeysExact
import Verif.Props.Subsets
import Verif.Props.TrieText
import Verif.Subset.Cut

/-!
# Property C69: error messages
-/

namespace EthTrie

open Spec KMap Nibbles

/-- C69: the messages of `from_bytes_be` and `from_bytes_le` give the number of bytes. -/
theorem C69_bytes (bs : Bytes) :
    (∀ e, fromBytesBE bs = .error e ∨ fromBytesLE bs = .error e →
      (bs = [] ∧ e.show = "Tried constructing `Nibbles` from a zero byte slice".toList) ∨
      (33 < bs.length ∧ e.show =
        "Tried constructing `Nibbles` from a byte slice with more than 33 bytes (len: ".toList ++
          Nat.toDigits 10 bs.length ++ ")".toList)) ∧
    (bs = [] ∨ 33 < bs.length →
      ∃ e, fromBytesBE bs = .error e ∧ fromBytesLE bs = .error e) := by
  have key : ∀ conv, fromBytes bs conv =
      if bs = [] then .error .zeroSizedKey
      else if 33 < bs.length then .error (.tooManyBytes bs.length)
      else .ok ⟨bs.length * 2, conv bs⟩ := by
    intro conv
    unfold fromBytes
    simp only [List.isEmpty_iff, gt_iff_lt]
  constructor
  · rintro e (h | h)
    all_goals
      first | unfold fromBytesBE at h | unfold fromBytesLE at h
      rw [key] at h
      split at h
      · rename_i h1
        exact .inl ⟨h1, by rw [← Except.error.inj h]; decide⟩
      · split at h
        · rename_i h1
          refine .inr ⟨h1, ?_⟩
          rw [← Except.error.inj h]
          rfl
        · cases h
  · intro h
    unfold fromBytesBE fromBytesLE
    rw [key, key]
    by_cases h0 : bs = []
    · simp [h0]
    · rcases h with h | h
      · exact absurd h h0
      · simp [h0, h]

/-- C69: the message for invalid flags gives them in binary. -/
theorem C69_flags (b : UInt8) (rest : Bytes) (hr : rest.length ≤ 32) (hb : 64 ≤ b.toNat) :
    ∃ e, fromHexPrefixEncoding (b :: rest) = .ok (.error e) ∧ e.show =
      ("Tried to convert a hex prefix byte string into `Nibbles` with invalid flags at the start: " ++
        "0b").toList ++ Nat.toDigits 2 (b.toNat / 16) := by
  refine ⟨_, fromHexPrefix_invalid hr (by omega), ?_⟩
  have h1 : b.toNat / 16 < 16 := by have := b.toNat_lt; omega
  have h2 : 4 ≤ b.toNat / 16 := by omega
  generalize b.toNat / 16 = f at h1 h2
  have : ∀ f : Fin 16, 4 ≤ f.val → FromHexPrefixError.show (.invalidFlags f.val) =
      ("Tried to convert a hex prefix byte string into `Nibbles` with invalid flags at the start: " ++
        "0b").toList ++ Nat.toDigits 2 f.val := by decide +kernel
  exact this ⟨f, h1⟩ h2

theorem hexEncode_alphabet (bs : Bytes) : hexEncode false bs =
    (nibblesOfBytes bs).map (fun d => (hexAlphabet false).getD d.val '?') := by
  rw [hexEncode_eq]
  have : ∀ d : Fin 16, hexChar false d = (hexAlphabet false).getD d.val '?' := by decide
  exact List.map_congr_left fun d _ => this d

/-- C69 with length and bytes interchanged: for strings of more than 33 bytes, the message has the bytes
where it announces the length, and the length where it announces the bytes. -/
theorem C69_tooLong_partial (bs : Bytes) (hb : 33 < bs.length) :
    ∃ e, fromHexPrefixEncoding bs = .ok (.error e) ∧ e.show =
      ("Tried to convert a hex prefix byte string into `Nibbles` that was longer than 64 bytes: " ++
        "(length: ").toList ++ (nibblesOfBytes bs).map (fun d => (hexAlphabet false).getD d.val '?') ++
        ", bytes: ".toList ++ Nat.toDigits 10 bs.length ++ ")".toList := by
  refine ⟨_, fromHexPrefix_tooLong hb, ?_⟩
  rw [← hexEncode_alphabet]
  rfl

theorem toDigits_length (n : Nat) : (Nat.toDigits 10 n).length ≤ n + 1 := by
  rcases Nat.eq_zero_or_pos n with rfl | h
  · decide
  · have := (Nat.length_toDigits_le_iff (b := 10) (n := n) (k := n + 1) (by omega) (by omega)).2
      (Nat.lt_of_lt_of_le (Nat.lt_pow_self (by omega : 1 < 10)) (Nat.pow_le_pow_right (by omega) (by omega)))
    exact this

theorem swap_ne (a b c : Text) (bs : Bytes) (hb : 33 < bs.length) :
    a ++ hexEncode false bs ++ (',' :: b) ++ Nat.toDigits 10 bs.length ++ c ≠
      a ++ Nat.toDigits 10 bs.length ++ (',' :: b) ++ hexEncode false bs ++ c := by
  intro h
  simp only [List.append_assoc, List.cons_append] at h
  have h4 := (cut (hexEncode_not (by decide) bs) (showNat_not (by decide) bs.length)
    (List.append_cancel_left h)).1
  have h5 := congrArg List.length h4
  have h6 := toDigits_length bs.length
  rw [hexEncode_eq, List.length_map, nibblesOfBytes_length] at h5
  unfold showNat at h5
  omega

/-- C69 is false for strings that are too long: the message is never the one that is announced. -/
theorem C69_false_tooLong (bs : Bytes) (hb : 33 < bs.length) :
    ∃ e, fromHexPrefixEncoding bs = .ok (.error e) ∧ e.show ≠
      ("Tried to convert a hex prefix byte string into `Nibbles` that was longer than 64 bytes: " ++
        "(length: ").toList ++ Nat.toDigits 10 bs.length ++ ", bytes: ".toList ++
        (nibblesOfBytes bs).map (fun d => (hexAlphabet false).getD d.val '?') ++ ")".toList := by
  obtain ⟨e, h1, h2⟩ := C69_tooLong_partial bs hb
  refine ⟨e, h1, fun h => ?_⟩
  rw [h2, ← hexEncode_alphabet] at h
  have e1 : ", bytes: ".toList = ',' :: " bytes: ".toList := by decide
  rw [e1] at h
  generalize " bytes: ".toList = b, ")".toList = c, (_ ++ "(length: " : String).toList = a at h
  exact swap_ne _ _ _ _ hb h

/-- C69 is false about the limit, too: strings of 34 bytes are said to have more than 64. -/
theorem C69_false_limit : ∃ bs : Bytes, bs.length = 34 ∧ ∃ e, fromHexPrefixEncoding bs = .ok (.error e) ∧
    ("Tried to convert a hex prefix byte string into `Nibbles` that was longer than 64 bytes: ").toList <+:
      e.show := by
  obtain ⟨e, h1, h2⟩ := C69_tooLong_partial (List.replicate 34 0) (by simp)
  refine ⟨_, by simp, e, h1, ?_⟩
  rw [h2]
  simp only [String.toList_append, List.append_assoc]
  exact List.prefix_append _ _

variable {K : Kind} {M : Mode} {P : Profile} {kec : Bytes → H256} {s : Sys K.Ann K.State} {i : Nat}
  {t : Trie K.Ann}

theorem Live.subset_text (h : Live K M P kec s) (hi : s.hs[i]? = some t) {ks : List Key}
    (hk : ∀ k ∈ ks, k.length ≤ 127) :
    TextRel K.cells t ks s.state ((markAllText K.cells P (Tracked.new t) (ks.map ofList)).run s.state)
      (markAll P (Tracked.new t) (ks.map ofList)) := by
  obtain ⟨w, p, Z, h1, -⟩ := h.refine
  obtain ⟨l, f, hz⟩ := h1.zip hi
  have hok := h1.ok _ (List.mem_of_getElem? hz)
  have := markAllText_run (L := Kind.laws kec K) (cached := K.cells) (P := P) s.state ks _ _ hok.rep.tracked
    (by rw [LTracked.node_new]; exact hok.bound) hk
  rwa [u_new] at this

/-- C69: `create_trie_subset` with both fields of its errors does what it does without. -/
theorem C69_subset (h : Live K M P kec s) (hi : s.hs[i]? = some t) {ks : List Key}
    (hk : ∀ k ∈ ks, k.length ≤ 127) :
    (createTrieSubsetText K.cells P kec t (ks.map ofList) s.state).map
      (fun r => (r.1.mapError (·.1), r.2)) = createTrieSubset P kec t (ks.map ofList) s.state := by
  have h1 := h.subset_text hi hk
  unfold createTrieSubsetText createTrieSubset
  rw [Prog.bind_run, Prog.bind_run]
  revert h1
  generalize (markAllText K.cells P (Tracked.new t) (ks.map ofList)).run s.state = x
  generalize markAll P (Tracked.new t) (ks.map ofList) = y
  intro h1
  rcases y with e | (e | tr)
  · rw [show x = _ from h1]; rfl
  · obtain ⟨_, -, _, _, _, _, -, -, -, -, rfl⟩ := h1; rfl
  · rw [show x = _ from h1]
    simp only [Prog.lift_run_ok, Prog.bind_run]
    rcases (createSubset P kec tr).run s.state with e | ⟨r, st⟩ <;> rfl

/-- The message for what is left of a key and the text of a hash node. -/
theorem show_hashText {r : Key} (hr : r.length ≤ 127) (P : Profile) (x : H256) (st : K.State) (a : K.Ann) :
    SubsetError.show P (hashText K.cells (TrieKind.cacheGet a st) x) (.unexpectedKey (ofList r)) = .ok (
      "Tried to mark nodes in a tracked trie for a key that does not exist! (Key: 0x".toList ++
        r.map (fun d => (hexAlphabet false).getD d.val '?') ++ ", trie: ".toList ++
        "TrackedNode { node: Hash, info: TrackedNodeInfo { underlying_node: ".toList ++
        (match (generalizing := false) K with
          | .standard => "StandardTrie(Hash(0x".toList ++
            (nibblesOfBytes x.toList).map (fun d => (hexAlphabet false).getD d.val '?') ++ "))".toList
          | .hashed => "HashedPartialTrie { node: Hash(0x".toList ++
            (nibblesOfBytes x.toList).map (fun d => (hexAlphabet false).getD d.val '?') ++
            "), hash: RwLock { data: ".toList ++ (match K.get st a with
              | none => "None".toList
              | some y => "Some(0x".toList ++
                (nibblesOfBytes y.toList).map (fun d => (hexAlphabet false).getD d.val '?') ++ ")".toList) ++
            " } }".toList) ++ ", touched: true } })".toList) := by
  have e1 : r.map (fun d => (hexAlphabet false).getD d.val '?') = r.map (hexChar false) := by
    have : ∀ d : Fin 16, (hexAlphabet false).getD d.val '?' = hexChar false d := by decide
    exact List.map_congr_left fun d _ => this d
  simp only [SubsetError.show, Nibbles.show, asHexStr_ok P (show r.length ≤ 128 by omega)]
  rw [e1]
  simp only [← hexEncode_alphabet]
  rw [R_bind_ok]
  refine congrArg Except.ok ?_
  rw [show "Tried to mark nodes in a tracked trie for a key that does not exist! (Key: 0x".toList =
    t!"Tried to mark nodes in a tracked trie for a key that does not exist! (Key: " ++ t!"0x"
    from by decide +kernel]
  rw [show ", trie: ".toList = t!", trie: " from by decide +kernel]
  rw [show "TrackedNode { node: Hash, info: TrackedNodeInfo { underlying_node: ".toList =
    t!"TrackedNode { node: Hash, info: TrackedNodeInfo { underlying_node: " from by decide +kernel]
  rw [show ", touched: true } })".toList = t!", touched: true } }" ++ t!")" from by decide +kernel]
  cases K with
  | standard =>
    simp only [hashText, Kind.cells, wrapText, debugH256, Bool.false_eq_true, if_false]
    rw [show "StandardTrie(Hash(0x".toList = t!"StandardTrie(" ++ t!"Hash(" ++ t!"0x" from by decide +kernel]
    rw [show "))".toList = t!")" ++ t!")" from by decide +kernel]
    simp only [List.append_assoc]
  | hashed =>
    simp only [hashText, Kind.cells, wrapText, debugH256, if_true]
    rw [show "HashedPartialTrie { node: Hash(0x".toList =
      t!"HashedPartialTrie { node: " ++ t!"Hash(" ++ t!"0x" from by decide +kernel]
    rw [show "), hash: RwLock { data: ".toList = t!")" ++ t!", hash: RwLock { data: " from by decide +kernel]
    rw [show " } }".toList = t!" } }" from by decide +kernel]
    cases hg : Kind.hashed.get st a with
    | none =>
      rw [show TrieKind.cacheGet a st = _ from hg]
      simp only [debugCell]
      rw [show "None".toList = t!"None" from by decide +kernel]
      simp only [List.append_assoc]
    | some y =>
      rw [show TrieKind.cacheGet a st = _ from hg]
      simp only [debugCell, debugH256]
      rw [show "Some(0x".toList = t!"Some(" ++ t!"0x" from by decide +kernel,
        show ")".toList = t!")" from by decide +kernel]
      simp only [List.append_assoc]

/-- C69: the message of `create_trie_subset` shows what is left of the key below the hash node, and this
node with its cached hash. Missing: the nibbles above it (`C69_false_key`). -/
theorem C69_key_partial (h : Live K M P kec s) (hi : s.hs[i]? = some t) {ks : List Key}
    (hk : ∀ k ∈ ks, k.length ≤ 127) {e : SubsetError} {trie : Text} {st : K.State}
    (he : createTrieSubsetText K.cells P kec t (ks.map ofList) s.state = .ok (.error (e, trie), st)) :
    st = s.state ∧ ∃ k ∈ ks, ∃ q r a x, k = q ++ r ∧ r ≠ [] ∧ t.NodeAt q (.hash a x) ∧ e.show P trie = .ok (
      "Tried to mark nodes in a tracked trie for a key that does not exist! (Key: 0x".toList ++
        r.map (fun d => (hexAlphabet false).getD d.val '?') ++ ", trie: ".toList ++
        "TrackedNode { node: Hash, info: TrackedNodeInfo { underlying_node: ".toList ++
        (match (generalizing := false) K with
          | .standard => "StandardTrie(Hash(0x".toList ++
            (nibblesOfBytes x.toList).map (fun d => (hexAlphabet false).getD d.val '?') ++ "))".toList
          | .hashed => "HashedPartialTrie { node: Hash(0x".toList ++
            (nibblesOfBytes x.toList).map (fun d => (hexAlphabet false).getD d.val '?') ++
            "), hash: RwLock { data: ".toList ++ (match K.get s.state a with
              | none => "None".toList
              | some y => "Some(0x".toList ++
                (nibblesOfBytes y.toList).map (fun d => (hexAlphabet false).getD d.val '?') ++ ")".toList) ++
            " } }".toList) ++ ", touched: true } })".toList) := by
  have h1 := h.subset_text hi hk
  unfold createTrieSubsetText at he
  rw [Prog.bind_run] at he
  revert h1 he
  generalize (markAllText K.cells P (Tracked.new t) (ks.map ofList)).run s.state = x
  generalize markAll P (Tracked.new t) (ks.map ofList) = y
  intro he h1
  rcases y with e | (e | tr)
  · rw [show x = _ from h1] at he; cases he
  · obtain ⟨k, hkk, q, r, a, x, hkq, hr, hn, rfl, rfl⟩ := h1
    cases he
    refine ⟨rfl, k, hkk, q, r, a, x, hkq, hr, hn, ?_⟩
    have hkr : r.length ≤ 127 := by
      have := hk k hkk
      rw [hkq, List.length_append] at this
      omega
    exact show_hashText hkr P x s.state a
  · rw [show x = _ from h1] at he
    simp only [Prog.bind_run] at he
    generalize (createSubset P kec tr).run s.state = z at he
    rcases z with e | ⟨r, st⟩ <;> cases he

/-- C69: the same for `create_trie_subsets`. -/
theorem C69_subsets (h : Live K M P kec s) (hi : s.hs[i]? = some t) {kss : List (List Key)}
    (hk : ∀ ks ∈ kss, ∀ k ∈ ks, k.length ≤ 127) :
    (createTrieSubsetsText K.cells P kec t (kss.map fun ks => ks.map ofList) s.state).map
      (fun r => (r.1.mapError (·.1), r.2)) =
    createTrieSubsets P kec t (kss.map fun ks => ks.map ofList) s.state := by
  obtain ⟨w, p, Z, h1, -⟩ := h.refine
  obtain ⟨l, f, hz⟩ := h1.zip hi
  have hok := h1.ok _ (List.mem_of_getElem? hz)
  exact (subsetsText_run (L := Kind.laws kec K) (cached := K.cells) (P := P) kss s.state _ _ hok.rep.tracked
    (by rw [LTracked.node_new]; exact hok.bound) hk).1

/-- C69: the message of `create_trie_subsets` is the one of `create_trie_subset`, with the hash that is cached
after the subsets for earlier lists have been made. Missing: see `C69_key_partial`. -/
theorem C69_keys_partial (h : Live K M P kec s) (hi : s.hs[i]? = some t) {kss : List (List Key)}
    (hk : ∀ ks ∈ kss, ∀ k ∈ ks, k.length ≤ 127) {e : SubsetError} {trie : Text} {st : K.State}
    (he : createTrieSubsetsText K.cells P kec t (kss.map fun ks => ks.map ofList) s.state =
      .ok (.error (e, trie), st)) :
    ∃ ks ∈ kss, ∃ k ∈ ks, ∃ q r a x, k = q ++ r ∧ r ≠ [] ∧ t.NodeAt q (.hash a x) ∧ e.show P trie = .ok (
      "Tried to mark nodes in a tracked trie for a key that does not exist! (Key: 0x".toList ++
        r.map (fun d => (hexAlphabet false).getD d.val '?') ++ ", trie: ".toList ++
        "TrackedNode { node: Hash, info: TrackedNodeInfo { underlying_node: ".toList ++
        (match (generalizing := false) K with
          | .standard => "StandardTrie(Hash(0x".toList ++
            (nibblesOfBytes x.toList).map (fun d => (hexAlphabet false).getD d.val '?') ++ "))".toList
          | .hashed => "HashedPartialTrie { node: Hash(0x".toList ++
            (nibblesOfBytes x.toList).map (fun d => (hexAlphabet false).getD d.val '?') ++
            "), hash: RwLock { data: ".toList ++ (match K.get st a with
              | none => "None".toList
              | some y => "Some(0x".toList ++
                (nibblesOfBytes y.toList).map (fun d => (hexAlphabet false).getD d.val '?') ++ ")".toList) ++
            " } }".toList) ++ ", touched: true } })".toList) := by
  obtain ⟨w, p, Z, h1, -⟩ := h.refine
  obtain ⟨l, f, hz⟩ := h1.zip hi
  have hok := h1.ok _ (List.mem_of_getElem? hz)
  have h2 := (subsetsText_run (L := Kind.laws kec K) (cached := K.cells) (P := P) kss s.state _ _ hok.rep.tracked
    (by rw [LTracked.node_new]; exact hok.bound) hk).2 e trie st he
  rw [u_new] at h2
  obtain ⟨ks, h3, k, h4, q, r, a, x, hkq, hr, hn, rfl, rfl⟩ := h2
  refine ⟨ks, h3, k, h4, q, r, a, x, hkq, hr, hn, show_hashText ?_ P x st a⟩
  have := hk ks h3 k h4
  rw [hkq, List.length_append] at this
  omega

/-- C69 is false about keys of subsets: the message shows `0x21` although the key is `0x221`. -/
theorem C69_false_key : ∀ (K : Kind) (P : Profile) (trie : Text),
    K.obs P kec0 [.fromIter exEntries, .subset 0 [[1, 2, 1], [5, 5]], .subset 1 [[2, 2, 1]]] =
      .ok [.unit, .unit, .err (.unexpectedKey (ofList [2, 1]))] ∧
    SubsetError.show P trie (.unexpectedKey (ofList [2, 1])) = .ok (
      "Tried to mark nodes in a tracked trie for a key that does not exist! (Key: 0x21, trie: ".toList ++
        trie ++ ")".toList) := by
  intro K ⟨P⟩ trie
  constructor
  · cases K <;> cases P <;> decide +kernel
  · simp only [SubsetError.show, Nibbles.show, asHexStr_ok _ (show [2, 1].length ≤ 128 by decide)]
    rfl

/-! ## Examples -/

example : (fromBytesBE (List.replicate 40 7)).mapError BytesError.show = .error
    "Tried constructing `Nibbles` from a byte slice with more than 33 bytes (len: 40)".toList := by
  decide +kernel

example : fromHexPrefixEncoding [0x50, 1] = .ok (.error (.invalidFlags 5)) ∧
    FromHexPrefixError.show (.invalidFlags 5) =
      ("Tried to convert a hex prefix byte string into `Nibbles` with invalid flags at the start: " ++
        "0b101").toList := by decide +kernel

example : ∀ kec, createTrieSubsetText false .release kec (.hash () (Vector.replicate 32 0xa7))
    [ofList [], ofList [1, 15]] () =
    .ok (.error (.unexpectedKey (ofList [1, 15]), ("TrackedNode { node: Hash, info: TrackedNodeInfo { " ++
      "underlying_node: StandardTrie(Hash(0xa7a7a7a7a7a7a7a7a7a7a7a7a7a7a7a7a7a7a7a7a7a7a7a7a7a7a7a7a7a7a7a7))" ++
      ", touched: true } }").toList), ()) := by
  intro kec; kernel_rfl

/-- The hash node on the way of the second list; its cell has been filled while the first subset was made. -/
example : (createTrieSubsetsText true .release kec0 (.branch (⟨0⟩ : CellId) (fun i => if i = 3 then
      .hash ⟨1⟩ (Vector.replicate 32 0xa7) else .empty ⟨2⟩) [1]) [[ofList []], [ofList [3, 15]]]
      (⟨3, fun _ => none⟩ : Heap)).map (fun r => match r.1 with
        | .error e => e.2
        | .ok _ => []) = .ok
    ("TrackedNode { node: Hash, info: TrackedNodeInfo { underlying_node: " ++
      "HashedPartialTrie { node: Hash(0xa7a7a7a7a7a7a7a7a7a7a7a7a7a7a7a7a7a7a7a7a7a7a7a7a7a7a7a7a7a7a7a7), " ++
      "hash: RwLock { data: Some(0xa7a7a7a7a7a7a7a7a7a7a7a7a7a7a7a7a7a7a7a7a7a7a7a7a7a7a7a7a7a7a7a7) } }" ++
      ", touched: true } }").toList := by kernel_rfl

end EthTrie
