import Verif.Props.Replay
import Verif.Subset.Nest

/-!
# Property C66: subsets of partial tries

A subset can be made from a partial trie instead of the full one, and it is the smallest partial trie
that serves its keys.
-/

namespace EthTrie

open Spec KMap LNode Nibbles

section

variable {K : Kind} {M : Mode} {P : Profile} {kec : Bytes → H256} {s : Sys K.Ann K.State}
  {i : Nat} {t : Trie K.Ann} {K' : Kind} {M' : Mode} {s' : Sys K'.Ann K'.State} {i' : Nat} {p : Trie K'.Ann}

/-- The key leads to no hash of `m'` that is not in `m`.  (Without overflow checks a key that stops inside a
run of zeros may lead on to the end of the run.) -/
def Clear (P : Profile) (m m' : KMap) (k : Key) : Prop :=
  ∀ q x, m' q = some (.hash x) → m q = some (.hash x) ∨
    (¬ q <+: k ∧ (P.overflowChecks = false → ¬ ∃ q₀ j, q = q₀ ++ List.replicate j 0 ∧ q₀ <+: k ∧
      k.length < q₀.length + j))

theorem clear_at {l l' : LNode} {ks : List Key} (h : ∀ k ∈ ks, Clear P (absL l) (absL l') k) :
    ∀ q x, At l' q (.hash x) → At l q (.hash x) ∨ ∀ k ∈ ks, ¬ OnPath P k q := by
  intro q x hq
  rw [at_hash] at hq ⊢
  by_cases hm : absL l q = some (.hash x)
  · exact .inl hm
  · right
    intro k hk
    rcases h k hk q x hq with g | ⟨g1, g2⟩
    · exact absurd g hm
    · rintro (g | ⟨hP, q₀, j, g⟩)
      · exact g1 g
      · exact g2 hP ⟨q₀, j, g⟩

/-- C66: a subset of a partial trie, for keys that do not lead to a replaced sub-trie, is the subset of the
full trie. -/
theorem C66_same (h : Reached K M P kec s) (hi : s.hs[i]? = some t) (h' : Live K' M' P kec s')
    (hi' : s'.hs[i']? = some p) (hv : p.ViewOf P kec t) {ks : List Key} (hne : ks ≠ [])
    (hk : ∀ k ∈ ks, k.length ≤ 127 ∧ Clear P t.contents p.contents k) {u : Trie K.Ann} {st : K.State}
    (he : createTrieSubset P kec t (ks.map ofList) s.state = .ok (.ok u, st)) :
    ∃ u' st', createTrieSubset P kec p (ks.map ofList) s'.state = .ok (.ok u', st') ∧ u'.beq u = true := by
  have hk' : ∀ k ∈ ks, k.length ≤ 127 := fun k h => (hk k h).1
  obtain ⟨h1, _, tr, h2, h3⟩ := h.live.subset_ok hi hk' he
  rw [viewOf_iff (h'.plain (List.mem_of_getElem? hi')) (h.live.plain (List.mem_of_getElem? hi))] at hv
  obtain ⟨tr', h4, h5⟩ := LTracked.markAll_view hv (h.canon (List.mem_of_getElem? hi)).1 h2
    (clear_at fun k h => (hk k h).2)
  obtain ⟨u', st', h6⟩ := h'.subset_mk hi' hk' h4
  refine ⟨u', st', h6, ?_⟩
  obtain ⟨g1, _, tr'', g2, g3⟩ := h'.subset_ok hi' hk' h6
  rw [h4] at g2
  cases g2
  rw [Trie.beq_iff_plain (g1.wfKeys (by simp)) (h1.wfKeys (by simp)), g3, h3, standIn_ne hne, standIn_ne hne,
    h5]

/-- C66: so a subset is a partial view of every partial trie that serves its keys. -/
theorem C66_least (h : Reached K M P kec s) (hi : s.hs[i]? = some t) (h' : Live K' M' P kec s')
    (hi' : s'.hs[i']? = some p) (hv : p.ViewOf P kec t) {ks : List Key} (hne : ks ≠ [])
    (hk : ∀ k ∈ ks, k.length ≤ 127 ∧ Clear P t.contents p.contents k) {u : Trie K.Ann} {st : K.State}
    (he : createTrieSubset P kec t (ks.map ofList) s.state = .ok (.ok u, st)) : u.ViewOf P kec p := by
  have hk' : ∀ k ∈ ks, k.length ≤ 127 := fun k h => (hk k h).1
  obtain ⟨u', st', h1, h2⟩ := C66_same h hi h' hi' hv hne hk he
  have h3 := C27_view h' hi' hk' (fun e => absurd e hne) h1
  obtain ⟨g1, _⟩ := h.live.subset_ok hi hk' he
  obtain ⟨g2, _⟩ := h'.subset_ok hi' hk' h1
  rw [Trie.beq_iff_plain (g2.wfKeys (by simp)) (g1.wfKeys (by simp))] at h2
  rw [viewOf_iff (g2.plain (by simp)) (h'.plain (List.mem_of_getElem? hi'))] at h3
  rw [viewOf_iff (g1.plain (by simp)) (h'.plain (List.mem_of_getElem? hi')), ← h2]
  exact h3

example (K : Kind) : (caseT K .debug 2).contents [2] = some (.hash (Vector.replicate 32 35)) :=
  ((caseLists₂ K .debug).2 _ _).1 (by decide)

/-- C66 for keys of one length: it is enough that the keys meet no hash in the partial trie. -/
theorem C66_fixed (h : Reached K M P kec s) (hi : s.hs[i]? = some t) (h' : Reached K' M' P kec s')
    (hi' : s'.hs[i']? = some p) (hv : p.ViewOf P kec t) {n : Nat} (hn : n ≤ 127)
    (hf : t.contents.FixedLen n) {ks : List Key} (hne : ks ≠ [])
    (hk : ∀ k ∈ ks, k.length = n ∧ p.contents.NoHashOn k) :
    ∃ u st u' st', createTrieSubset P kec t (ks.map ofList) s.state = .ok (.ok u, st) ∧
      createTrieSubset P kec p (ks.map ofList) s'.state = .ok (.ok u', st') ∧ u'.beq u = true ∧
      u.ViewOf P kec p := by
  have hk64 : ∀ k ∈ ks, k.length ≤ 127 := fun k h1 => by rw [(hk k h1).1]; exact hn
  have hc := (C64_iff h hi h' hi').1 hv
  have hno : ∀ k ∈ ks, t.contents.NoHashOn k := fun k h1 => cutOf_noHash hc (hk k h1).2
  have hp := cutOf_fixedLen hc hf
  have hclear : ∀ k ∈ ks, k.length ≤ 127 ∧ Clear P t.contents p.contents k := by
    refine fun k h1 => ⟨hk64 k h1, fun q x hq => .inr ⟨(hk k h1).2 q x hq, fun _ => ?_⟩⟩
    rintro ⟨q₀, j, rfl, _, h2⟩
    have := hp.le _ (by rw [hq]; simp)
    rw [List.length_append, List.length_replicate] at this
    have := (hk k h1).1
    omega
  have h1 : ∃ u st, createTrieSubset P kec t (ks.map ofList) s.state = .ok (.ok u, st) := by
    have h1 := C30_partial h hi hk64 fun hP k h1 => by
      rintro ⟨q, r, _, _, h2, ⟨d, w, h3⟩, h5, _⟩
      have := (h5 _ h3 (List.prefix_append _ _)).length_le
      have := hf.le _ h3
      have := (hk k h1).1
      omega
    rcases h1 with ⟨u, st, h1, _⟩ | ⟨r, st, _, ks₁, k, ks₂, rfl, _, _, q, x, rfl, h2⟩
    · exact ⟨u, st, h1⟩
    · exact absurd (List.prefix_append _ _) (hno (q ++ r) (by simp) q x h2)
  obtain ⟨u, st, h1⟩ := h1
  obtain ⟨u', st', h2, h3⟩ := C66_same h hi h'.live hi' hv hne hclear h1
  exact ⟨u, st, u', st', h1, h2, h3, C66_least h hi h'.live hi' hv hne hclear h1⟩

/-- C66: a subset for some of the keys of a subset can be made from that subset. -/
theorem C66_nest (h : Live K M P kec s) (hi : s.hs[i]? = some t) {ks ks' : List Key}
    (hk : ∀ k ∈ ks, k.length ≤ 127) (hsub : ∀ k ∈ ks', k ∈ ks) (hne : ks' ≠ []) {u : Trie K.Ann}
    {st : K.State} (he : createTrieSubset P kec t (ks.map ofList) s.state = .ok (.ok u, st)) :
    ∃ w st₁ w' st₂, createTrieSubset P kec t (ks'.map ofList) s.state = .ok (.ok w, st₁) ∧
      createTrieSubset P kec u (ks'.map ofList) st = .ok (.ok w', st₂) ∧ w'.beq w = true := by
  have hk' : ∀ k ∈ ks', k.length ≤ 127 := fun k h => hk k (hsub k h)
  have hne₀ : ks ≠ [] := by
    rintro rfl
    cases ks' with
    | nil => exact hne rfl
    | cons k _ => exact absurd (hsub k (by simp)) (by simp)
  obtain ⟨h1, _, tr, h2, h3⟩ := h.subset_ok hi hk he
  rw [standIn_ne hne₀] at h3
  obtain ⟨tr', h4⟩ := LTracked.markAll_fewer hsub h2
  obtain ⟨w, st₁, h5⟩ := h.subset_mk hi hk' h4
  obtain ⟨tr'', h6, h7⟩ := LTracked.markAll_nest (kec := kec) hsub h2
  obtain ⟨w', st₂, h8⟩ := h1.subset_mk (last_get s.hs u) hk' (by rw [h3]; exact h6)
  refine ⟨w, st₁, w', st₂, h5, h8, ?_⟩
  obtain ⟨g1, _, x, g2, g3⟩ := h.subset_ok hi hk' h5
  obtain ⟨g4, _, y, g5, g6⟩ := h1.subset_ok (last_get s.hs u) hk' h8
  rw [h4] at g2
  cases g2
  rw [h3, h6] at g5
  cases g5
  rw [Trie.beq_iff_plain (g4.wfKeys (by simp)) (g1.wfKeys (by simp)), g3, g6, standIn_ne hne,
    standIn_ne hne, h7, LTracked.markAll_new h4]

end

/-- Subsets for `0x1` and `0x2` of a trie and of one in which a hash stands for what is below `0x0`. -/
example (K : Kind) (P : Profile) (kec : Bytes → H256) (v w : Bytes)
    (hv : 32 ≤ (node kec [([], .val v)]).length) : ∃ (s : Sys K.Ann K.State) (t p u u' : Trie K.Ann) (st st' : K.State),
    Reached K .noEmptySubset P kec s ∧ t.contents = KMap.empty.putAll [([0], .val v), ([1], .val w)] ∧
    p.contents = KMap.empty.putAll [([0], .hash (trieRoot kec [([], .val v)])), ([1], .val w)] ∧
    createTrieSubset P kec t [ofList [1], ofList [2]] s.state = .ok (.ok u, st) ∧
    createTrieSubset P kec p [ofList [1], ofList [2]] s.state = .ok (.ok u', st') ∧ u'.beq u = true ∧
    u.ViewOf P kec p := by
  obtain ⟨-, s, h3, i, t, j, p, hi, hj, ht, hp⟩ := build_two K P kec
    (xs := [([0], .val v), ([1], .val w)])
    (ys := [([0], .hash (trieRoot kec [([], .val v)])), ([1], .val w)])
    (lists_putAll _ (by simp)) (lists_putAll _ (by simp)) (by simp) (by simp) (by simp) (by simp)
  have hc := cutOf_two kec v w hv
  rw [← ht, ← hp] at hc
  obtain ⟨u, st, u', st', h⟩ := C66_fixed h3 hi h3 hj ((C64_iff h3 hi h3 hj).2 hc) (n := 1) (by omega)
    (by rw [ht]; exact two_fixedLen v w) (ks := [[1], [2]]) (by simp) (by
      rw [hp]
      intro k hk
      simp only [List.mem_cons, List.not_mem_nil, or_false] at hk
      rcases hk with rfl | rfl
      · exact ⟨rfl, two_noHash w _ 1 (by decide)⟩
      · exact ⟨rfl, two_noHash w _ 2 (by decide)⟩)
  exact ⟨s, t, p, u, u', st, st', h3, ht, hp, h⟩

/-- A subset of a subset and of the full trie; and one for a key
that leads to a replaced sub-trie, which is an error. -/
example : ∀ K : Kind, ∀ P : Profile, K.obs P kec0 [.fromIter exEntries,
    .subset 0 [[1, 2, 1], [2, 3]], .subset 1 [[1, 2, 1]], .subset 0 [[1, 2, 1]], .eq 2 3, .eq 1 3,
    .subset 3 [[2, 3]]] =
    .ok [.unit, .unit, .unit, .unit, .bool true, .bool false, .err (.unexpectedKey (ofList [3]))] := by
  intro K ⟨P⟩; cases K <;> cases P <;> decide +kernel

end EthTrie
