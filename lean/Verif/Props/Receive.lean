import Verif.Spec.Received
import Verif.Props.Commit
import Verif.Props.Serde

/-!
# Property C71: received tries can be checked against a root hash

Somebody sends a serialised partial trie.  The receiver knows the root hash of the full trie, reads the
data and compares the hash.
-/

namespace EthTrie

open Spec KMap LNode Nibbles
open SData (fields2 ofBytes ofHash ofNibbles)

theorem clean_plain {α : Type} {kec : Bytes → H256} {t : Trie α} (h : t.KeysClean) : t.Plain kec := by
  induction t with
  | empty a => exact RepN.empty (L := lawsUnit kec) (w := ()) ()
  | hash a x => exact RepN.hash (L := lawsUnit kec) (w := ()) () x
  | leaf a n v =>
    have := RepN.leaf (L := lawsUnit kec) (w := ()) () n.toList v (by rw [toList_length]; exact h.2)
    rw [ofList_toList h.1] at this
    exact this
  | ext a n c ih =>
    have := RepN.ext (L := lawsUnit kec) (w := ()) () n.toList c.bare c.plain
      (by rw [toList_length]; exact h.2.1) (ih h.2.2) trivial
    rw [ofList_toList h.1] at this
    exact this
  | branch a cs v ih =>
    exact RepN.branch (L := lawsUnit kec) (w := ()) () _ _ v (fun i => ih i (h i)) fun _ => trivial

theorem clean_sound {K : Kind} {P : Profile} {kec : Bytes → H256} {s : K.State} {t : Trie K.Ann}
    (h : t.KeysClean) (hi : t.CachesRight K P kec s) : SoundN kec (K.get s) t t.plain := by
  induction t with
  | empty a => exact .empty a
  | hash a x => exact .hash a x
  | leaf a n v =>
    have := SoundN.leaf (kec := kec) (get := K.get s) a n.toList v (by rw [toList_length]; exact h.2)
    rw [ofList_toList h.1] at this
    exact this
  | ext a n c ih =>
    have := SoundN.ext (kec := kec) (get := K.get s) a n.toList c c.plain
      (by rw [toList_length]; exact h.2.1)
      (ih h.2.2 fun q u hu x hx => hi _ u (.ext a n c q u hu) x hx) (by
        intro x hx
        have e := hi _ c (.ext a n c [] c (.here c)) x hx
        rw [(clean_plain h.2.2).refer] at e
        exact Except.ok.inj e)
    rw [ofList_toList h.1] at this
    exact this
  | branch a cs v ih =>
    refine .branch a cs _ v (fun i => ih i (h i) fun q u hu x hx =>
      hi _ u (.branch a cs v i q u hu) x hx) fun i x hx => ?_
    have e := hi _ (cs i) (.branch a cs v i [] (cs i) (.here _)) x hx
    rw [(clean_plain (h i)).refer] at e
    exact Except.ok.inj e

/-- Views of well-formed tries are well-formed. -/
theorem LNode.View.shape {kec : Bytes → H256} {p l : LNode} (h : View kec p l) {b : Nat} (hb : l.Bound b)
    (he : l.ExtOK) : p.Bound b ∧ p.ExtOK := by
  induction h generalizing b with
  | away m h hm => exact ⟨trivial, trivial⟩
  | empty => exact ⟨trivial, trivial⟩
  | branch ps cs v h ih =>
    exact ⟨⟨hb.1, fun i => (ih i (hb.2 i) (he i)).1⟩, fun i => (ih i (hb.2 i) (he i)).2⟩
  | ext n p c h ih =>
    have := ih hb.2 he.2.2
    refine ⟨⟨hb.1, this.1⟩, he.1, ?_, this.2⟩
    have := he.2.1
    cases h <;> first | exact this | trivial
  | leaf n v => exact ⟨hb, he⟩

section
variable {K : Kind} {M : Mode} {P : Profile} {kec : Bytes → H256} {s : Sys K.Ann K.State}
  {t : Trie K.Ann} {σ : K.State} {d : SData} {K' : Kind} {M' : Mode} [M'.Safe] {P' : Profile}
  {s' : Sys K'.Ann K'.State} {i' : Nat} {t' : Trie K'.Ann}

/-- What is read represents something if the keys fit and no cache is wrong. -/
theorem received_rep (h : Live K M P kec s) (hd : (Trie.de K.cells d).run s.state = .ok (.ok t, σ))
    (hk : t.KeysClean) (hc : t.CachesRight K P kec σ) : ∃ w : (Kind.laws kec K).W,
    (Kind.laws kec K).st w = σ ∧ RepN (L := Kind.laws kec K) kec w t t.plain := by
  obtain ⟨w, p, Z, h1, _⟩ := h.inv.ex
  obtain ⟨t', w', g1, _, _, g4, _⟩ := de_run (K := K) (clean_sound hk hc)
    (fun hc => Kind.get_none hc _ _) w
  rw [h1.state] at hd
  have e := read_again hd
  rw [g1] at e
  cases e
  exact ⟨w', rfl, g4⟩

/-- The hash of a received trie is right if the keys fit and no cache is wrong. -/
theorem received_hash (h : Live K M P kec s)
    (hd : (Trie.de K.cells d).run s.state = .ok (.ok t, σ)) (hk : t.KeysClean)
    (hc : t.CachesRight K P kec σ) :
    (t.rootHash P kec σ).map (·.1) = .ok (t.plain.rootHash kec) := by
  obtain ⟨w, rfl, hr⟩ := received_rep h hd hk hc
  rw [hr.hashOf]
  cases e : K.trieKind.cacheGet t.ann ((Kind.laws kec K).st w) with
  | none => rfl
  | some x =>
    have := hc _ t (.here t) x e
    rw [(clean_plain hk).refer, Except.ok.injEq] at this
    rw [LNode.rootHash, this]
    rfl

/-- C71 for data whose `Nibbles` have zeros above their nibbles and whose caches, if there are any, are
right; nothing is assumed about the shape of the trie.  If the hash is the root hash of a full trie, then
the received trie is a partial view of it and the program goes on as if it had built the trie by calls;
or there is a collision.  Missing: other data, see `C71_false` and `C71_forged`. -/
theorem C71_partial (h : Live K M P kec s)
    (hd : (Trie.de K.cells d).run s.state = .ok (.ok t, σ)) (hk : t.KeysClean)
    (hc : t.CachesRight K P kec σ) (hm : M = .noEmptySubset → K.get σ t.ann = none)
    (h' : Live K' M' P' kec s') (hi' : s'.hs[i']? = some t') (hv : t.SmallValues)
    (hv' : t'.SmallValues) (hn : ¬ t.IsHash) (hn' : t'.NoHash)
    (he : (t.rootHash P kec σ).map (·.1) = (t'.rootHash P' kec s'.state).map (·.1)) :
    (t.ViewOf P kec t' ∧ Live K M P kec ⟨σ, s.hs ++ [t]⟩) ∨ t.Collide kec t' := by
  rw [received_hash h hd hk hc, h'.hash hi'] at he
  have hp := clean_plain (kec := kec) hk
  have hp' := h'.plain (List.mem_of_getElem? hi')
  rcases rootHash_agree (small_plain hp hv) (small_plain hp' hv')
    (fun hx => hn ((isHash_plain t).1 hx)) (noHash_plain hn' _ _ (.here _)) (by simpa using he) with g | g
  · have hw := g.view (noHash_plain hn')
    have hs := h'.shape (List.mem_of_getElem? hi')
    have hs := hw.shape hs.1 hs.2
    obtain ⟨w, hw', hr⟩ := received_rep h hd hk hc
    refine .inl ⟨(viewOf_iff hp hp').2 hw, h.load (P := P) hd ⟨hr.formed hs.1 hs.2,
      fun q u hu _ x hx => hc q u hu x hx, fun _ => ?_⟩⟩
    cases M with
    | any => trivial
    | noEmptySubset => exact hm rfl
    | noClone => exact fun x hx => hc _ t (.here t) x hx
  · exact .inr (collide_plain g)

/-- C71: values read from the received trie are those of the full trie. -/
theorem C71_value_partial (h : Live K M P kec s)
    (hd : (Trie.de K.cells d).run s.state = .ok (.ok t, σ)) (hk : t.KeysClean)
    (hc : t.CachesRight K P kec σ) (hm : M = .noEmptySubset → K.get σ t.ann = none)
    (h' : Live K' M' P kec s') (hi' : s'.hs[i']? = some t') (hv : t.SmallValues)
    (hv' : t'.SmallValues) (hn : ¬ t.IsHash) (hn' : t'.NoHash)
    (he : (t.rootHash P kec σ).map (·.1) = (t'.rootHash P kec s'.state).map (·.1))
    {k : Key} (hl : k.length ≤ 127) {v : Bytes} (hg : t.get P (ofList k) = .ok (some v)) :
    t'.get P (ofList k) = .ok (some v) ∨ t.Collide kec t' := by
  refine (C71_partial h hd hk hc hm h' hi' hv hv' hn hn' he).imp (fun g => ?_) id
  have hi : (⟨σ, s.hs ++ [t]⟩ : Sys K.Ann K.State).hs[s.hs.length]? = some t := by simp
  rw [g.2.get hi hl] at hg
  rw [h'.get hi' hl]
  exact View.get_some ((viewOf_iff (clean_plain hk) (h'.plain (List.mem_of_getElem? hi'))).1 g.1) hg

end

/-- C71 for `StandardTrie`s, which have no caches: it is enough that the `Nibbles` are checked. -/
theorem C71_standard_partial {M M' : Mode} [M'.Safe] {P P' : Profile} {kec : Bytes → H256}
    {s : Sys Kind.standard.Ann Kind.standard.State} {t : Trie Kind.standard.Ann}
    {σ : Kind.standard.State} {d : SData} {K' : Kind} {s' : Sys K'.Ann K'.State} {i' : Nat}
    {t' : Trie K'.Ann} (h : Live .standard M P kec s)
    (hd : (Trie.de false d).run s.state = .ok (.ok t, σ)) (hk : t.KeysClean)
    (h' : Live K' M' P' kec s') (hi' : s'.hs[i']? = some t') (hv : t.SmallValues)
    (hv' : t'.SmallValues) (hn : ¬ t.IsHash) (hn' : t'.NoHash)
    (he : (t.rootHash P kec σ).map (·.1) = (t'.rootHash P' kec s'.state).map (·.1)) :
    (t.ViewOf P kec t' ∧ Live .standard M P kec ⟨σ, s.hs ++ [t]⟩) ∨ t.Collide kec t' :=
  C71_partial h hd hk (fun _ _ _ _ hx => nomatch hx) (fun _ => rfl) h' hi' hv hv' hn hn' he

/-- A trie whose cell is empty can be sent to every program. -/
theorem Live.send {K : Kind} {M M₀ : Mode} {P P₀ : Profile} {kec : Bytes → H256}
    {s s₀ : Sys K.Ann K.State} {t₀ : Trie K.Ann} (h₀ : Live K M₀ P₀ kec s₀) (ht : t₀ ∈ s₀.hs)
    (hn : K.get s₀.state t₀.ann = none) (h : Live K M P kec s) :
    ∃ d t σ, (t₀.ser K.cells).run s₀.state = .ok (d, s₀.state) ∧
      (Trie.de K.cells d).run s.state = .ok (.ok t, σ) ∧ t.plain = t₀.plain ∧
      (t.rootHash P kec σ).map (·.1) = (t₀.rootHash P kec s₀.state).map (·.1) ∧
      Live K M P kec ⟨σ, s.hs ++ [t]⟩ := by
  obtain ⟨w, p, Z, h1, _⟩ := h.inv.ex
  obtain ⟨w₀, p₀, Z₀, i1, _⟩ := h₀.inv.ex
  rw [i1.hs, List.mem_map] at ht
  obtain ⟨a, ha, rfl⟩ := ht
  have hok := i1.ok a ha
  obtain ⟨t, w', g1, g2, g3, g4, g5, g6, g7, g8⟩ := de_run (K := K) hok.rep.sound
    (fun hc => Kind.get_none hc _ _) w
  have g7' : K.get ((Kind.laws kec K).st w') t.ann = none := by
    rw [i1.state] at hn
    exact g7.trans hn
  refine ⟨_, t, (Kind.laws kec K).st w', ser_run _ _, ?_, g4.plain.trans hok.rep.plain.symm, ?_, ?_⟩
  · rw [h1.state, i1.state]; exact g1
  · rw [g4.hashOf, i1.state, hok.rep.hashOf, show K.trieKind.cacheGet t.ann _ = _ from g7]
  · refine h.load (P := P) (by rw [h1.state]; exact g1) ⟨g4.formed hok.bound hok.ext, g4.innerRight,
      fun hK => ?_⟩
    cases M with
    | any => trivial
    | noEmptySubset => exact g7'
    | noClone => intro x hx; rw [g7'] at hx; cases hx

section
variable {K : Kind} {M : Mode} [M.Safe] {M' : Mode} {P P' : Profile} {kec : Bytes → H256}
  {s : Sys K.Ann K.State} {i : Nat} {t p : Trie K.Ann} {st : K.State} {s' : Sys K.Ann K.State}

/-- C71, honest senders: a subset that is sent is received with the root hash of the full trie, and
with the values (or absence) of the keys it was made for. -/
theorem C71_honest (h : Live K M P kec s) (hi : s.hs[i]? = some t) {ks : List Key}
    (hk : ∀ k ∈ ks, k.length ≤ 127)
    (he : createTrieSubset P kec t (ks.map ofList) s.state = .ok (.ok p, st)) (h' : Live K M' P kec s') :
    ∃ d u σ, (p.ser K.cells).run st = .ok (d, st) ∧
      (Trie.de K.cells d).run s'.state = .ok (.ok u, σ) ∧
      (u.rootHash P kec σ).map (·.1) = (t.rootHash P kec s.state).map (·.1) ∧
      u.ViewOf P kec t ∧ (∀ k ∈ ks, u.get P (ofList k) = t.get P (ofList k)) ∧
      Live K M' P kec ⟨σ, s'.hs ++ [u]⟩ := by
  obtain ⟨h1, h0, _⟩ := h.subset_ok hi hk he
  have hv := C27_view h hi hk (fun _ => h.freshAt i) he
  obtain ⟨d, u, σ, g1, g2, g3, g4, g5⟩ := h1.send (by simp) h0 h'
  have hu : (⟨σ, s'.hs ++ [u]⟩ : Sys K.Ann K.State).hs[s'.hs.length]? = some u := by simp
  have hp : (⟨st, s.hs ++ [p]⟩ : Sys K.Ann K.State).hs[s.hs.length]? = some p := by simp
  refine ⟨d, u, σ, g1, g2, g4.trans (C27_subset h hi hk he), ?_, fun k hkk => ?_, g5⟩
  · rw [viewOf_iff (h1.plain (by simp)) (h.plain (List.mem_of_getElem? hi))] at hv
    rwa [viewOf_iff (g5.plain (by simp)) (h.plain (List.mem_of_getElem? hi)), g3]
  · rw [← C28_subset h hi hk he k hkk, g5.get hu (hk k hkk), h1.get hp (hk k hkk), g3]

end

/-- Somebody makes a trie with hash nodes out of a full one and sends it; the root hash and the keys are
checked and a value is read.  (This is a case of `C71_honest`.) -/
example : ∀ K : Kind, ∀ P : Profile, K.obsReload P kec0 [.fromIter exEntries, .subset 0 [[1, 2, 1]]] 1
    [.hash 0, .hash 2, .get 2 [1, 2, 1], .get 0 [1, 2, 1], .eq 1 2, .eq 0 2] =
    some [.root (Vector.replicate 32 83), .root (Vector.replicate 32 83),
      .val (some (List.replicate 40 2)), .val (some (List.replicate 40 2)), .bool true,
      .bool false] := by
  intro K ⟨P⟩; cases K <;> cases P <;> decide +kernel

/-- The premises of `C71_partial` about the data hold for every trie of a program, with its caches,
unless the cache of its root is stale. -/
theorem Live.clean {K : Kind} {M : Mode} [hM : M.Safe] {P : Profile} {kec : Bytes → H256}
    {s : Sys K.Ann K.State} {t : Trie K.Ann} (h : Live K M P kec s) (ht : t ∈ s.hs) :
    t.KeysClean ∧ t.CachesRight K P kec s.state := by
  have hs := h.inv.sound (P := P) ht
  have hf : ∀ {t : Trie K.Ann} {b : Nat}, b ≤ 128 → t.Formed b → t.KeysClean := by
    intro t
    induction t with
    | empty a => exact fun _ _ => trivial
    | hash a x => exact fun _ _ => trivial
    | leaf a n v => exact fun hb h => ⟨h.1, h.2.trans hb⟩
    | ext a n c ih => exact fun hb h => ⟨h.1, h.2.2.1.trans hb, ih (by omega) h.2.2.2.2⟩
    | branch a cs v ih => exact fun hb h i => ih i (by omega) (h.2 i)
  refine ⟨hf (by decide) hs.formed, fun q u hu x hx => ?_⟩
  by_cases hq : q = []
  · have hut : u = t := by
      have hf := hs.formed
      cases hu with
      | here t => rfl
      | branch a cs v d q u h => cases hq
      | ext a n c q u h =>
        have := congrArg List.length (List.append_eq_nil_iff.1 hq).1
        rw [toList_length] at this
        exact absurd this hf.2.1
    subst hut
    obtain ⟨i, hi⟩ := List.mem_iff_getElem?.1 ht
    rw [(h.plain ht).refer, h.freshAt i u hi x hx]
  · exact hs.inner q u hu hq x hx

/-- The data of a trie without caches that has one leaf, whose `Nibbles` are not well-formed. -/
def oddLeaf (K : Kind) : SData := leafAs K ⟨2, 0x1523⟩ [7]

/-- C71 fails for data with bits above the nibbles, for both trie types, both build profiles and every
hash function: the trie that is received has the hash of the full trie, but it has a value for a key
that is not in the full trie, and no value for the key that is. -/
theorem C71_false (K : Kind) (P : Profile) (kec : Bytes → H256) :
    ∃ (s : Sys K.Ann K.State) (t' : Trie K.Ann) (t : Trie K.Ann) (σ : K.State),
      Live K .noClone P kec s ∧ s.hs[0]? = some t' ∧ (∀ k, t'.contents k = if k = [5, 2, 3] then some (.val [7]) else none) ∧
      readAs K (oddLeaf K) = some (t, σ) ∧
      (t.rootHash P kec σ).map (·.1) = (t'.rootHash P kec s.state).map (·.1) ∧
      t.get P (ofList [2, 3, 0]) = .ok (some [7]) ∧ t'.get P (ofList [2, 3, 0]) = .ok none ∧
      t.get P (ofList [5, 2, 3]) = .ok none ∧ t'.get P (ofList [5, 2, 3]) = .ok (some [7]) := by
  have h0 := (Live.start (K := K) (M := .noClone) (P := P) (kec := kec)).exec
    (c := .fromIter [([5, 2, 3], .val [7])]) (by simp [Cmd.Short]) trivial
  have h1 : plainExec P kec K.start.plains (.fromIter [([5, 2, 3], .val [7])]) =
      .ok ([.leaf [5, 2, 3] [7]], .unit) := rfl
  rw [h1] at h0
  cases hx : K.start.exec P kec (.fromIter [([5, 2, 3], .val [7])]) with
  | error e => rw [hx] at h0; cases h0
  | ok r =>
    obtain ⟨s, o⟩ := r
    rw [hx] at h0
    simp only [plainRes, Except.map, Except.ok.injEq, Prod.mk.injEq] at h0
    have hl : Live K .noClone P kec s := .step .start (by simp [Cmd.Short])
      (by cases K <;> simp [permitted]) hx
    obtain ⟨t', ht'⟩ : ∃ t', s.hs = [t'] := by
      have := congrArg List.length h0.1
      rw [Sys.plains, List.length_map] at this
      exact List.length_eq_one_iff.1 this
    have hi : s.hs[0]? = some t' := by rw [ht']; rfl
    have hp : t'.plain = .leaf [5, 2, 3] [7] := by
      have := h0.1
      rw [Sys.plains, ht'] at this
      simpa using this
    refine ⟨s, t', _, _, hl, hi, ?_, by rw [oddLeaf, readAs, de_leaf K (by decide)], ?_, ?_, ?_, ?_, ?_⟩
    · intro k
      rw [Trie.contents, hp]
      simp [LNode.absL]
    · have h2 : (⟨2, 0x1523⟩ : Nibbles).toHexPrefixEncoding P true =
          (⟨3, 0x523⟩ : Nibbles).toHexPrefixEncoding P true := by
        obtain ⟨P⟩ := P
        cases P <;> decide +kernel
      have h3 : (Trie.leaf () ⟨3, 0x523⟩ [7]).Plain kec :=
        clean_plain (t := Trie.leaf () ⟨3, 0x523⟩ [7]) ⟨by decide +kernel, by decide⟩
      have h4 : (Trie.leaf () ⟨3, 0x523⟩ [7]).plain = .leaf [5, 2, 3] [7] :=
        congrArg (LNode.leaf · [7]) (by decide +kernel : (⟨3, 0x523⟩ : Nibbles).toList = [5, 2, 3])
      have h5 := h3.hash (P := P)
      rw [h4] at h5
      rw [hash_leaf, hl.hash hi, hp, h2, ← h5]
      exact (hash_leaf .standard P kec ⟨3, 0x523⟩ [7] ()).symm
    · obtain ⟨P⟩ := P; cases P <;> kernel_rfl
    · rw [hl.get hi (by decide), hp]; obtain ⟨P⟩ := P; cases P <;> decide +kernel
    · obtain ⟨P⟩ := P; cases P <;> kernel_rfl
    · rw [hl.get hi (by decide), hp]; obtain ⟨P⟩ := P; cases P <;> decide +kernel

/-- C71 fails for `HashedPartialTrie`s because caches in the data are not checked: for every two tries
there are data that are read as the one and have the hash of the other. -/
theorem C71_forged {M M₀ M' : Mode} {P P₀ P' : Profile} {kec : Bytes → H256}
    {s s₀ : Sys Kind.hashed.Ann Kind.hashed.State} {t₀ : Trie Kind.hashed.Ann}
    (h₀ : Live .hashed M₀ P₀ kec s₀) (ht : t₀ ∈ s₀.hs) {K' : Kind} [M'.Safe] {s' : Sys K'.Ann K'.State}
    {t' : Trie K'.Ann} {i' : Nat} (h' : Live K' M' P' kec s') (hi' : s'.hs[i']? = some t')
    (h : Live .hashed M P kec s) :
    ∃ (d : SData) (t : Trie Kind.hashed.Ann) (σ : Kind.hashed.State),
      (Trie.de true d).run s.state = .ok (.ok t, σ) ∧ t.bare = t₀.bare ∧
      (t.rootHash P kec σ).map (·.1) = (t'.rootHash P' kec s'.state).map (·.1) := by
  obtain ⟨_, _, t, σ, _, h2, h3, h4⟩ := C57_forged h₀ ht h (t'.plain.rootHash kec)
  exact ⟨_, t, σ, h2, h3, h4.trans (h'.hash hi').symm⟩

end EthTrie
