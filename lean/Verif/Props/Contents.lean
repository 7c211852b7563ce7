import Verif.Props.Cases
import Verif.Spec.Canon
import Verif.Trie.Opaque
import Verif.Trie.ItemsAbs

/-!
# Properties C16 – C20, C36 – C38: contents, equality, iteration
-/

namespace EthTrie

open Spec KMap LNode Nibbles

variable {K : Kind} {M : Mode} {P : Profile} {kec : Bytes → H256} {s : Sys K.Ann K.State}
  {i : Nat} {t : Trie K.Ann}

/-! ## C36 -/

/-- C36: `==` is reflexive, on all tries. -/
theorem C36_refl {α : Type} (t : Trie α) : t.beq t = true := by
  induction t with
  | empty a => rfl
  | hash a h => simp [Trie.beq]
  | branch a cs v ih => simp [Trie.beq, ih]
  | ext a n c ih => simp [Trie.beq, ih]
  | leaf a n v => simp [Trie.beq]

/-- C36: `==` is symmetric. -/
theorem C36_symm {α β : Type} (t : Trie α) (u : Trie β) : t.beq u = u.beq t := by
  induction t generalizing u with
  | empty a => cases u <;> rfl
  | hash a h => cases u <;> simp [Trie.beq, BEq.comm]
  | branch a cs v ih =>
    cases u with
    | branch b cs' v' => simp only [Trie.beq, ih, BEq.comm]
    | _ => rfl
  | ext a n c ih =>
    cases u with
    | ext b n' c' => simp only [Trie.beq, ih, BEq.comm]
    | _ => rfl
  | leaf a n v => cases u <;> simp [Trie.beq, BEq.comm]

/-- C36: `==` is transitive. -/
theorem C36_trans {α β γ : Type} (t : Trie α) (u : Trie β) (w : Trie γ) (h1 : t.beq u = true)
    (h2 : u.beq w = true) : t.beq w = true := by
  induction t generalizing u w with
  | empty a => cases u <;> cases w <;> simp_all [Trie.beq]
  | hash a h => cases u <;> cases w <;> simp_all [Trie.beq]
  | branch a cs v ih =>
    cases u with
    | branch b cs' v' =>
      cases w with
      | branch c cs'' v'' =>
        simp only [Trie.beq, Bool.and_eq_true, beq_iff_eq, List.all_eq_true, List.mem_finRange,
          true_implies] at h1 h2 ⊢
        exact ⟨h1.1.trans h2.1, fun i => ih i _ _ (h1.2 i) (h2.2 i)⟩
      | _ => simp [Trie.beq] at h2
    | _ => simp [Trie.beq] at h1
  | ext a n c ih =>
    cases u with
    | ext b n' c' =>
      cases w with
      | ext d n'' c'' =>
        simp only [Trie.beq, Bool.and_eq_true, beq_iff_eq] at h1 h2 ⊢
        exact ⟨h1.1.trans h2.1, ih _ _ h1.2 h2.2⟩
      | _ => simp [Trie.beq] at h2
    | _ => simp [Trie.beq] at h1
  | leaf a n v => cases u <;> cases w <;> simp_all [Trie.beq]

theorem beq_plain {α β : Type} {t : Trie α} {u : Trie β} (h : t.beq u = true) :
    t.plain = u.plain := by
  induction t generalizing u with
  | empty a => cases u <;> simp_all [Trie.beq, Trie.plain]
  | hash a h => cases u <;> simp_all [Trie.beq, Trie.plain]
  | branch a cs v ih =>
    cases u with
    | branch b cs' v' =>
      simp only [Trie.beq, Bool.and_eq_true, beq_iff_eq, List.all_eq_true, List.mem_finRange,
          true_implies] at h
      simp only [Trie.plain, h.1, LNode.branch.injEq, and_true]
      exact funext fun i => ih i (h.2 i)
    | _ => simp [Trie.beq] at h
  | ext a n c ih =>
    cases u with
    | ext b n' c' =>
      simp only [Trie.beq, Bool.and_eq_true, beq_iff_eq] at h
      simp only [Trie.plain, h.1, ih h.2]
    | _ => simp [Trie.beq] at h
  | leaf a n v => cases u <;> simp_all [Trie.beq, Trie.plain]

/-- C36: equal tries have the same contents, and `get` gives the same result (or panic) on them, for
all tries whatsoever. -/
theorem C36_congr {α β : Type} (t : Trie α) (u : Trie β) (h : t.beq u = true) :
    t.contents = u.contents ∧ ∀ P k, t.get P k = u.get P k := by
  refine ⟨by rw [Trie.contents, Trie.contents, beq_plain h], fun P k => ?_⟩
  unfold Trie.get
  induction t generalizing u k with
  | empty a => cases u <;> simp_all [Trie.beq, getIntern]
  | hash a h => cases u <;> simp_all [Trie.beq, getIntern]
  | branch a cs v ih =>
    cases u with
    | branch b cs' v' =>
      simp only [Trie.beq, Bool.and_eq_true, beq_iff_eq, List.all_eq_true, List.mem_finRange,
          true_implies] at h
      simp only [getIntern, h.1, fun i k => ih i _ (h.2 i) k]
    | _ => simp [Trie.beq] at h
  | ext a n c ih =>
    cases u with
    | ext b n' c' =>
      simp only [Trie.beq, Bool.and_eq_true, beq_iff_eq] at h
      simp only [getIntern, h.1, fun k => ih _ h.2 k]
    | _ => simp [Trie.beq] at h
  | leaf a n v => cases u <;> simp_all [Trie.beq, getIntern]

/-- Tries of different types. -/
example (P : Profile) : (caseT .standard P 0).contents = (caseT .hashed P 0).contents ∧
    ∀ P' k, (caseT .standard P 0).get P' k = (caseT .hashed P 0).get P' k :=
  C36_congr _ _ (by obtain ⟨P⟩ := P; cases P <;> decide +kernel)

/-- C36: equal tries, of either type, in any two programs, have the same items. -/
theorem C36_items {K₁ K₂ : Kind} {M₁ M₂ : Mode} {P₁ P₂ : Profile}
    {s₁ : Sys K₁.Ann K₁.State} {s₂ : Sys K₂.Ann K₂.State} (h₁ : Live K₁ M₁ P₁ kec s₁)
    (h₂ : Live K₂ M₂ P₂ kec s₂) {i₁ i₂ : Nat} {t₁ : Trie K₁.Ann} {t₂ : Trie K₂.Ann}
    (m₁ : s₁.hs[i₁]? = some t₁) (m₂ : s₂.hs[i₂]? = some t₂) (h : t₁.beq t₂ = true) :
    t₁.items P₁ = t₂.items P₂ := by
  rw [h₁.items m₁, h₂.items m₂, beq_plain h]

/-- C36: equal tries, of either type, in any two programs, have the same items and the same hash. -/
theorem C36_items_hash {K₁ K₂ : Kind} {M₁ M₂ : Mode} [M₁.Safe] [M₂.Safe] {P₁ P₂ : Profile}
    {s₁ : Sys K₁.Ann K₁.State} {s₂ : Sys K₂.Ann K₂.State} (h₁ : Live K₁ M₁ P₁ kec s₁)
    (h₂ : Live K₂ M₂ P₂ kec s₂) {i₁ i₂ : Nat} {t₁ : Trie K₁.Ann} {t₂ : Trie K₂.Ann}
    (m₁ : s₁.hs[i₁]? = some t₁) (m₂ : s₂.hs[i₂]? = some t₂) (h : t₁.beq t₂ = true) :
    t₁.items P₁ = t₂.items P₂ ∧
    (t₁.rootHash P₁ kec s₁.state).map (·.1) = (t₂.rootHash P₂ kec s₂.state).map (·.1) := by
  rw [h₁.items m₁, h₂.items m₂, h₁.hash m₁, h₂.hash m₂, beq_plain h]
  exact ⟨rfl, rfl⟩

example (P P' : Profile) : (caseT .standard P 2).items P = (caseT .hashed P' 2).items P' ∧
    ((caseT .standard P 2).rootHash P kec0 (caseS .standard P).state).map (·.1) =
      ((caseT .hashed P' 2).rootHash P' kec0 (caseS .hashed P').state).map (·.1) :=
  C36_items_hash (caseLive .standard P) (caseLive .hashed P') (caseGet _ _ (by decide)) (caseGet _ _ (by decide))
    (by obtain ⟨P⟩ := P; obtain ⟨P'⟩ := P'; cases P <;> cases P' <;> decide +kernel)

/-- C36: tries reached in any two programs are equal exactly if their contents are. -/
theorem C36_iff_contents {K₁ K₂ : Kind} {M₁ M₂ : Mode} {P₁ P₂ : Profile} {kec₁ kec₂ : Bytes → H256}
    {s₁ : Sys K₁.Ann K₁.State} {s₂ : Sys K₂.Ann K₂.State} (h₁ : Reached K₁ M₁ P₁ kec₁ s₁)
    (h₂ : Reached K₂ M₂ P₂ kec₂ s₂) {t₁ : Trie K₁.Ann} {t₂ : Trie K₂.Ann} (m₁ : t₁ ∈ s₁.hs)
    (m₂ : t₂ ∈ s₂.hs) : t₁.beq t₂ = true ↔ t₁.contents = t₂.contents :=
  beq_iff_contents h₁ h₂ m₁ m₂

/-- The clone to which `0x15` was added stores something else. -/
example (P : Profile) : (caseT .standard P 0).contents ≠ (caseT .hashed P 1).contents :=
  fun h => absurd ((C36_iff_contents (caseReached .standard P) (caseReached .hashed P)
    (caseMem _ _ (by decide)) (caseMem _ _ (by decide))).2 h)
    (by obtain ⟨P⟩ := P; cases P <;> decide +kernel)

/-! ## C16 -/

theorem putAll_perm {xs ys : List (Key × ValOrHash)} (h : xs.Perm ys) (hn : (xs.map (·.1)).Nodup)
    (m : KMap) : m.putAll xs = m.putAll ys := by
  induction h generalizing m with
  | nil => rfl
  | cons x h ih => exact ih (List.nodup_cons.1 hn).2 _
  | swap x y l =>
    obtain ⟨a, v⟩ := x
    obtain ⟨b, w⟩ := y
    simp only [List.map_cons, List.nodup_cons, List.mem_cons, not_or] at hn
    simp only [KMap.putAll, put_comm (m := m) (v := w) (w := v) hn.1.1]
  | trans h1 _ ih1 ih2 =>
    rw [ih1 hn, ih2 ((h1.map _).nodup_iff.1 hn)]

/-- C16: building tries of either type from two orders of the same entries (values under keys none
of which is a prefix of another) gives equal tries with equal hashes. -/
theorem C16_order (K : Kind) (P : Profile) (kec : Bytes → H256) (xs ys : List (Key × ValOrHash))
    (hperm : xs.Perm ys) (hl : ∀ x ∈ xs, x.1.length ≤ 127) (hv : ∀ x ∈ xs, ∃ v, x.2 = .val v)
    (hx : xs.Pairwise fun x y => ¬ x.1 <+: y.1 ∧ ¬ y.1 <+: x.1) :
    ∃ h, K.obs P kec [.fromIter xs, .fromIter ys, .eq 0 1, .hash 0, .hash 1] =
      .ok [.unit, .unit, .bool true, .root h, .root h] := by
  have hS : PrefixFree fun k => ∃ x ∈ xs, x.1 = k := by
    rintro _ _ ⟨x, hx1, rfl⟩ ⟨y, hy1, rfl⟩ hxy
    by_contra hne
    have := List.pairwise_iff_getElem.1 hx
    obtain ⟨a, ha, rfl⟩ := List.mem_iff_getElem.1 hx1
    obtain ⟨b, hb, rfl⟩ := List.mem_iff_getElem.1 hy1
    rcases Nat.lt_trichotomy a b with h | h | h
    · exact (this a b ha hb h).1 hxy
    · subst h; exact hne rfl
    · exact (this b a hb ha h).2 hxy
  have hn : (xs.map (·.1)).Nodup := by
    refine List.pairwise_map.2 (hx.imp fun {a b} h e => h.1 ?_)
    rw [e]; exact List.prefix_rfl
  have hov : ∀ c ∈ [Cmd.fromIter xs, .fromIter ys, .eq 0 1, .hash 0, .hash 1],
      c.Over fun k => ∃ x ∈ xs, x.1 = k := by
    have h1 : ∀ x ∈ xs, (∃ y ∈ xs, y.1 = x.1) ∧ ∃ v, x.2 = .val v :=
      fun x hx => ⟨⟨x, hx, rfl⟩, hv x hx⟩
    intro c hc
    simp only [List.mem_cons, List.not_mem_nil, or_false] at hc
    rcases hc with rfl | rfl | rfl | rfl | rfl
    · exact h1
    · exact fun x hx => h1 x (hperm.mem_iff.2 hx)
    all_goals trivial
  have hget : PathsOK kec [] [.fromIter xs, .fromIter ys, .eq 0 1, .hash 0, .hash 1] := by
    simp only [PathsOK, reduceCtorEq, false_implies, implies_true, and_true]
  obtain ⟨s, os, h1, h2, h3⟩ := Reached.run (M := .noEmptySubset) _
    (.start (K := K) (P := P) (kec := kec))
    (over_supportedRun hS (by rintro k ⟨x, hx, rfl⟩; exact hl x hx) _ (fun m h => by cases h) hov
      (fun c hc hm => by
        simp only [List.mem_cons, List.not_mem_nil, or_false] at hc
        rcases hc with rfl | rfl | rfl | rfl | rfl <;> exact hm.elim)
      fun _ => hget) fun c hc => over_permitted (hov c hc)
  have hm : KMap.empty.putAll ys = KMap.empty.putAll xs := (putAll_perm hperm hn _).symm
  have h0 : (Kind.start K).contents = [] := rfl
  rw [h0] at h2
  generalize hms : s.contents = ms at h2
  cases h2 with | cons e1 h2 =>
  cases h2 with | cons e2 h2 =>
  cases h2 with | cons e3 h2 =>
  cases h2 with | cons e4 h2 =>
  cases h2 with | cons e5 h2 =>
  cases h2
  obtain ⟨rfl, rfl⟩ := e1
  obtain ⟨rfl, rfl⟩ := e2
  obtain ⟨⟨b, rfl, hb⟩, rfl⟩ := e3
  obtain ⟨⟨J, hJ, rfl⟩, rfl⟩ := e4
  obtain ⟨⟨J', hJ', rfl⟩, rfl⟩ := e5
  cases hb.2 hm.symm
  have h5 : ∃ t ∈ s.hs, t.contents = KMap.empty.putAll xs := by
    have : KMap.empty.putAll xs ∈ s.contents := by rw [hms]; simp
    simpa only [Sys.contents, List.mem_map] using this
  obtain ⟨t, ht, htc⟩ := h5
  have hc := (h3.canon ht).1
  refine ⟨trieRoot kec J, ?_⟩
  have e1 := rootHash_spec kec (J := J) hc (by rw [← Trie.contents, htc]; exact hJ)
  have e2 := rootHash_spec kec (J := J') hc (by rw [← Trie.contents, htc, ← hm]; exact hJ')
  rw [e1] at e2
  rw [Kind.obs, Kind.run, h1, ← e2]
  rfl

/-- C16: any two tries of the same or different types, reached in any two programs, that hold the
same entries are equal and have the same hash. -/
theorem C16_histories {K₁ K₂ : Kind} {M₁ M₂ : Mode} [M₁.Safe] [M₂.Safe] {P₁ P₂ : Profile}
    {s₁ : Sys K₁.Ann K₁.State} {s₂ : Sys K₂.Ann K₂.State} (h₁ : Reached K₁ M₁ P₁ kec s₁)
    (h₂ : Reached K₂ M₂ P₂ kec s₂) {i₁ i₂ : Nat} {t₁ : Trie K₁.Ann} {t₂ : Trie K₂.Ann}
    (m₁ : s₁.hs[i₁]? = some t₁) (m₂ : s₂.hs[i₂]? = some t₂) (h : t₁.contents = t₂.contents) :
    t₁.beq t₂ = true ∧
    (t₁.rootHash P₁ kec s₁.state).map (·.1) = (t₂.rootHash P₂ kec s₂.state).map (·.1) := by
  have hb := (C36_iff_contents h₁ h₂ (List.mem_of_getElem? m₁) (List.mem_of_getElem? m₂)).2 h
  exact ⟨hb, (C36_items_hash h₁.live h₂.live m₁ m₂ hb).2⟩

/-- A program in which the entries come in another order and one is deleted again. -/
def otherProg : List Cmd := [.fromIter caseXs.reverse, .insert 0 [3] (.val [4]), .delete 0 [3]]

theorem otherLive (K : Kind) (P : Profile) : Live K .noEmptySubset P kec0 (K.after P otherProg) := by
  refine Kind.after_live ?_ ?_ ?_
  · obtain ⟨P⟩ := P; cases K <;> cases P <;> decide +kernel
  · simp only [otherProg, List.forall_mem_cons, Cmd.Short]
    exact ⟨by decide, by decide, by decide, nofun⟩
  · cases K <;> simp [otherProg, permitted]

example (K : Kind) (P : Profile) : (K.trie P otherProg 0).beq (caseT K P 0) = true ∧
    ((K.trie P otherProg 0).rootHash P kec0 (K.after P otherProg).state).map (·.1) =
      ((caseT K P 0).rootHash P kec0 (caseS K P).state).map (·.1) := by
  refine C16_histories (.of (otherLive K P) ?_) (caseReached K P) (Kind.trie_get ?_)
    (caseGet K P (by decide)) ((K.trie P otherProg 0).lists.ext (caseLists₀ K P) ?_)
  all_goals obtain ⟨P⟩ := P; cases K <;> cases P <;> decide +kernel

/-- A case of `C16_order` with keys of different lengths. -/
example : ∃ h, Kind.hashed.obs .debug kec0 [.fromIter [([1, 2], .val [7]), ([1, 3, 4], .val [8])],
    .fromIter [([1, 3, 4], .val [8]), ([1, 2], .val [7])], .eq 0 1, .hash 0, .hash 1] =
    .ok [.unit, .unit, .bool true, .root h, .root h] :=
  C16_order _ _ _ _ _ (.swap _ _ _) (by decide) (by simp) (by simp)

/-! ## C17 -/

/-- C17 fails: `0x1234` is stored; inserting and deleting `0x12` leaves a different trie. -/
theorem C17_false_shape : ∀ (K : Kind) (P : Profile) (kec : Bytes → H256),
    K.obs P kec [.new, .insert 0 [1, 2, 3, 4] (.val [7]), .clone 0, .insert 0 [1, 2] (.val [8]),
      .delete 0 [1, 2], .eq 0 1] =
      .ok [.unit, .unit, .unit, .unit, .val (some [8]), .bool false] := by
  intro K ⟨P⟩ kec; cases K <;> cases P <;> kernel_rfl

/-- C17 fails: `0x1` is stored; after inserting `0x12`, deleting `0x12` panics. -/
theorem C17_false_panic : ∀ (K : Kind) (P : Profile) (kec : Bytes → H256),
    K.obs P kec [.new, .insert 0 [1] (.val [7]), .insert 0 [1, 2] (.val [8]), .delete 0 [1, 2]] =
      .error .expectFailed := by
  intro K ⟨P⟩ kec; cases K <;> cases P <;> kernel_rfl

theorem erase_put {m : KMap} {k : Key} {v : ValOrHash} (h : m k = none) :
    (m.put k v).erase k = m := by
  funext q
  by_cases hq : q = k
  · subst hq; simp [erase, h]
  · simp [erase, put, hq]

/-- C17 where both calls are supported (`InsertOK`, `DeleteOK`).  Missing: keys that are prefixes of
stored keys or extend them in the ways of the counterexamples. -/
theorem C17_partial [M.Safe] (h : Reached K M P kec s) (hi : s.hs[i]? = some t) {k : Key}
    (hk : k.length ≤ 127) (hf : t.contents k = none) (v : Bytes)
    (h1 : t.contents.InsertOK k (.val v)) (h2 : (t.contents.put k (.val v)).DeleteOK k)
    (hsh : (t.contents.put k (.val v)).Short) :
    ∃ t₁ st₁ t₂ st₂, t.insert P (ofList k) (.val v) s.state = .ok (t₁, st₁) ∧
      t₁.delete P (ofList k) st₁ = .ok ((t₂, some v), st₂) ∧ t₂.beq t = true ∧
      (t₂.rootHash P kec st₂).map (·.1) = (t.rootHash P kec s.state).map (·.1) := by
  obtain ⟨t₁, st₁, e1, g1, c1⟩ := h.insert hi hk h1
  rw [← c1] at h2 hsh
  obtain ⟨t₂, st₂, e2, g2, c2⟩ :=
    g1.delete (s := ⟨st₁, s.hs.set i t₁⟩) (Sys.set_get hi t₁) hk h2 hsh
  have hv : t₁.contents.find k = some v := by simp [find, c1, put]
  rw [hv] at e2
  have hi2 : (⟨st₂, (s.hs.set i t₁).set i t₂⟩ : Sys K.Ann K.State).hs[i]? = some t₂ :=
    Sys.set_get (s := ⟨st₁, s.hs.set i t₁⟩) (Sys.set_get hi t₁) t₂
  have := C16_histories g2 h hi2 hi (by rw [c2, c1, erase_put hf])
  exact ⟨t₁, st₁, t₂, st₂, e1, e2, this⟩

/-- `0x16` is inserted next to other entries below the stored key `0x1`. -/
example (K : Kind) (P : Profile) : ∃ t₁ st₁ t₂ st₂,
      (caseT K P 0).insert P (ofList [1, 6]) (.val [3]) (caseS K P).state = .ok (t₁, st₁) ∧
      t₁.delete P (ofList [1, 6]) st₁ = .ok ((t₂, some [3]), st₂) ∧ t₂.beq (caseT K P 0) = true ∧
      (t₂.rootHash P kec0 st₂).map (·.1) = ((caseT K P 0).rootHash P kec0 (caseS K P).state).map (·.1) := by
  have h0 := caseLists₀ K P
  have h1 := h0.put (k := [1, 6]) (by decide) (.val [3])
  exact C17_partial (caseReached K P) (caseGet K P (by decide)) (by decide) (h0.none_of (by decide)) _
    (h0.insertOK_of (by decide +kernel)) (h1.deleteOK_of (by decide +kernel)) (h1.short_of (by decide))

/-- C17 for all keys that are neither a prefix nor an extension of a stored key. -/
theorem C17_incomparable [M.Safe] (h : Reached K M P kec s) (hi : s.hs[i]? = some t) {k : Key}
    (hk : k.length ≤ 64) (hsh : t.contents.Short)
    (hf : ∀ q, t.contents q ≠ none → ¬ q <+: k ∧ ¬ k <+: q) (v : Bytes) :
    ∃ t₁ st₁ t₂ st₂, t.insert P (ofList k) (.val v) s.state = .ok (t₁, st₁) ∧
      t₁.delete P (ofList k) st₁ = .ok ((t₂, some v), st₂) ∧ t₂.beq t = true ∧
      (t₂.rootHash P kec st₂).map (·.1) = (t.rootHash P kec s.state).map (·.1) := by
  have hk0 : t.contents k = none := by
    by_contra h
    exact (hf k h).1 List.prefix_rfl
  have hb : ¬ t.contents.Below k := fun ⟨d, r, h⟩ => (hf _ h).2 ⟨_, rfl⟩
  have hb' : ¬ (t.contents.put k (.val v)).Below k := fun ⟨d, r, h⟩ => by
    rw [put, if_neg (by simp)] at h
    exact hb ⟨d, r, h⟩
  refine C17_partial h hi (by omega) hk0 v
    ⟨fun q x e hq => (hf q (by simp [e])).1 hq, fun q e hq => absurd hq (hf q (by simp [e])).1,
      fun hb1 => absurd hb1 hb, fun _ _ => .inr (.inl hb), fun _ e => by cases e⟩
    ⟨fun q x e hq => ?_, fun _ => .inl hb', fun _ => .inl hb', fun _ q d r e hq _ => ?_⟩
    fun q hq => ?_
  · rw [put] at e
    split at e
    · cases e
    · exact (hf q (by simp [e])).1 hq
  · rw [put, if_neg (by rw [e]; simp)] at hq
    exact absurd ⟨_, e.symm⟩ (hf q hq).1
  · rw [put] at hq
    split at hq
    · subst_vars; exact hk
    · exact hsh q hq

/-- The same for `0x3` in the partial trie. -/
example (K : Kind) (P : Profile) : ∃ t₁ st₁ t₂ st₂,
      (caseT K P 2).insert P (ofList [3]) (.val [3]) (caseS K P).state = .ok (t₁, st₁) ∧
      t₁.delete P (ofList [3]) st₁ = .ok ((t₂, some [3]), st₂) ∧ t₂.beq (caseT K P 2) = true ∧
      (t₂.rootHash P kec0 st₂).map (·.1) = ((caseT K P 2).rootHash P kec0 (caseS K P).state).map (·.1) := by
  have h2 := caseLists₂ K P
  refine C17_incomparable (caseReached K P) (caseGet K P (by decide)) (by decide) (h2.short_of (by decide))
    (fun q hq => ?_) _
  obtain ⟨x, hx, rfl⟩ := (h2.some_iff q).1 hq
  exact (by decide : ∀ x ∈ caseYs, ¬ x.1 <+: [3] ∧ ¬ [3] <+: x.1) x hx

/-! ## C18, C19 -/

theorem bound_absL : ∀ (l : LNode) (b : Nat) (q : Key), l.Bound b → absL l q ≠ none →
    q.length ≤ b := by
  intro l
  induction l with
  | empty => intro b q _ h; simp at h
  | hash x =>
    intro b q _ h
    rw [absL_hash] at h
    by_cases hq : q = []
    · simp [hq]
    · simp [hq] at h
  | leaf n v =>
    intro b q hb h
    rw [absL_leaf] at h
    by_cases hq : q = n
    · rw [hq]; exact hb
    · simp [hq] at h
  | ext n c ih =>
    intro b q hb h
    obtain ⟨r, rfl, hr⟩ := absL_ext_some h
    have := ih _ r hb.2 hr
    have := hb.1
    simp only [List.length_append]
    omega
  | branch cs v ih =>
    intro b q hb h
    cases q with
    | nil => simp
    | cons d q =>
      have := ih d _ q (hb.2 d) h
      have := hb.1
      simp only [List.length_cons]
      omega

theorem packEntries_inj : ∀ {J J' : List (Key × ValOrHash)}, (∀ x ∈ J, x.1.length ≤ 127) →
    (∀ x ∈ J', x.1.length ≤ 127) → packEntries J = packEntries J' → J = J'
  | [], [], _, _, _ => rfl
  | [], _ :: _, _, _, h => by simp [packEntries] at h
  | _ :: _, [], _, _, h => by simp [packEntries] at h
  | x :: J, y :: J', h1, h2, h => by
    simp only [packEntries, List.map_cons, List.cons.injEq, Prod.mk.injEq] at h
    have hx := h1 x (by simp)
    have hy := h2 y (by simp)
    have e1 := ofList_inj (by omega) (by omega) h.1.1
    rw [packEntries_inj (fun z hz => h1 z (by simp [hz])) (fun z hz => h2 z (by simp [hz])) h.2]
    cases x; cases y
    simp_all

theorem plain_bound {α : Type} (t : Trie α) : ∀ {b}, t.plain.Bound b ↔ t.PathsAtMost b := by
  induction t with
  | empty a => intros; exact Iff.rfl
  | hash a x => intros; exact Iff.rfl
  | leaf a n v => intro b; simp [Trie.plain, LNode.Bound, Trie.PathsAtMost, toList_length]
  | ext a n c ih =>
    intro b
    simp only [Trie.plain, LNode.Bound, Trie.PathsAtMost, toList_length]
    exact and_congr_right fun _ => ih
  | branch a cs v ih => exact fun {b} => and_congr_right fun _ => forall_congr' fun i => ih i

/-- C18, C19: in every state that a program reaches with calls that did not panic, `items()`,
`keys()` and `values()` enumerate exactly the entries, each once, if no path has more than 64
nibbles. -/
theorem C18_items (h : Live K M P kec s) (hi : s.hs[i]? = some t) (hp : t.PathsAtMost 64) :
    ∃ J : List (Key × ValOrHash), t.items P = .ok (packEntries J) ∧
      t.keys P = .ok (J.map fun x => ofList x.1) ∧ t.values P = .ok (J.map fun x => x.2) ∧
      (J.map fun x => x.1).Nodup ∧ (∀ k v, (k, v) ∈ J ↔ t.contents k = some v) ∧
      (∀ x ∈ J, x.1.length ≤ 64) := by
  have hl := items_lists t.plain
  have hb := (plain_bound t).2 hp
  have he := h.items_short hi hb
  refine ⟨t.plain.items [], he, ?_, ?_, hl.1, hl.2, fun x hx => ?_⟩
  · simp [Trie.keys, he, packItems, packEntries, List.map_map, Function.comp_def]
  · simp [Trie.values, he, packItems, packEntries, List.map_map, Function.comp_def]
  · refine bound_absL _ 64 x.1 hb ?_
    rw [(hl.2 x.1 x.2).1 hx]; simp

/-- The partial trie. -/
example (K : Kind) (P : Profile) : ∃ J : List (Key × ValOrHash), (caseT K P 2).items P = .ok (packEntries J) ∧
      (caseT K P 2).keys P = .ok (J.map fun x => ofList x.1) ∧
      (caseT K P 2).values P = .ok (J.map fun x => x.2) ∧ (J.map fun x => x.1).Nodup ∧
      (∀ k v, (k, v) ∈ J ↔ (caseT K P 2).contents k = some v) ∧ (∀ x ∈ J, x.1.length ≤ 64) :=
  C18_items (caseLive K P) (caseGet K P (by decide))
    ((plain_bound _).1 (((caseReached K P).canon (caseMem K P (by decide))).1.bound
      ((caseLists₂ K P).short_of (by decide))))

/-- C18: if some path has more than 64 nibbles, `items()`, `keys()` and `values()` panic. -/
theorem C18_items_long (h : Live K M P kec s) (hi : s.hs[i]? = some t) (hp : ¬ t.PathsAtMost 64) :
    t.items P = .error .assertFailed ∧ t.keys P = .error .assertFailed ∧
      t.values P = .error .assertFailed := by
  have he : t.items P = .error .assertFailed := by
    rw [h.items hi, LNode.itemsA, if_neg fun hb => hp ((plain_bound t).1 hb)]; rfl
  exact ⟨he, by rw [Trie.keys, he]; rfl, by rw [Trie.values, he]; rfl⟩

/-- A key of 65 nibbles. -/
def longProg : List Cmd := [.new, .insert 0 (List.replicate 65 1) (.val [7])]

theorem longLive (K : Kind) (P : Profile) : Live K .noEmptySubset P kec0 (K.after P longProg) := by
  refine Kind.after_live ?_ ?_ ?_
  · obtain ⟨P⟩ := P; cases K <;> cases P <;> decide +kernel
  · simp only [longProg, List.forall_mem_cons, Cmd.Short]
    exact ⟨trivial, by decide, nofun⟩
  · cases K <;> simp [longProg, permitted]

theorem longGet (K : Kind) (P : Profile) : (K.after P longProg).hs[0]? = some (K.trie P longProg 0) := by
  refine Kind.trie_get ?_
  obtain ⟨P⟩ := P; cases K <;> cases P <;> decide +kernel

example (K : Kind) (P : Profile) : (K.trie P longProg 0).items P = .error .assertFailed ∧
    (K.trie P longProg 0).keys P = .error .assertFailed ∧
    (K.trie P longProg 0).values P = .error .assertFailed := by
  refine C18_items_long (longLive K P) (longGet K P) fun h => ?_
  have h' : (K.trie P longProg 0).contents (List.replicate 65 1) ≠ none := by
    obtain ⟨P⟩ := P; cases K <;> cases P <;> decide +kernel
  exact absurd (bound_absL _ _ _ ((plain_bound _).2 h) h') (by decide)

/-- C19: the keys of `items()` ascend (a key comes after its extensions). -/
theorem C19_items_order (h : Live K M P kec s) (hi : s.hs[i]? = some t)
    {J : List (Key × ValOrHash)} (hJ : t.items P = .ok (packEntries J))
    (hl : ∀ x ∈ J, x.1.length ≤ 127) : J.Pairwise fun x y => Before x.1 y.1 := by
  have hb : t.plain.Bound 64 := by
    by_contra hb
    rw [h.items hi, LNode.itemsA, if_neg hb] at hJ; cases hJ
  have hb' : ∀ x ∈ t.plain.items [], x.1.length ≤ 127 := fun x hx => by
    refine (bound_absL _ 64 x.1 hb ?_).trans (by decide)
    rw [((items_lists t.plain).2 x.1 x.2).1 hx]; simp
  rw [h.items_short hi hb, Except.ok.injEq] at hJ
  rw [← packEntries_inj hb' hl hJ]
  exact items_ordered t.plain []

/-- The keys of the partial trie, in the order of `items()`. -/
example (K : Kind) (P : Profile) : [([1, 2], .val [8]), ([1, 3], .val [9]), ([1, 4], .val [10]), ([1], .val [7]),
    ([2], .hash (Vector.replicate 32 35))].Pairwise fun x y : Key × ValOrHash => Before x.1 y.1 :=
  C19_items_order (caseLive K P) (caseGet K P (i := 2) (by decide))
    (by obtain ⟨P⟩ := P; cases K <;> cases P <;> decide +kernel) (by decide)

/-- Values, hash nodes and keys that are prefixes of others. -/
example : Kind.hashed.obs .debug kec0 [.new, .insert 0 [1, 2] (.val [7]), .insert 0 [1, 3, 4] (.val [8]),
    .insert 0 [1, 3, 5] (.hash (kec0 [])), .insert 0 [1] (.val [9]), .items 0] =
    .ok [.unit, .unit, .unit, .unit, .unit, .items (packEntries [([1, 2], .val [7]),
      ([1, 3, 4], .val [8]), ([1, 3, 5], .hash (kec0 [])), ([1], .val [9])])] := by
  decide +kernel

/-! ## C20 -/

/-- C20: keys that reach a hash node. -/
theorem C20_opaque (h : Live K M P kec s) (hi : s.hs[i]? = some t) {q r : Key} {x : H256}
    (hq : t.contents q = some (.hash x)) (hk : (q ++ r).length ≤ 127) :
    (∀ v, t.insert P (ofList (q ++ r)) v s.state = .error .hashInsert) ∧
    t.delete P (ofList (q ++ r)) s.state = .error .hashDelete ∧
    t.get P (ofList (q ++ r)) = .ok none := by
  refine ⟨fun v => ?_, ?_, ?_⟩
  · have := h.insert hi hk v
    rw [insert_hash v _ _ _ hq] at this
    revert this
    cases t.insert P (ofList (q ++ r)) v s.state <;> simp [Except.map]
  · have := h.delete hi hk
    rw [deleteA_hash hq] at this
    revert this
    cases t.delete P (ofList (q ++ r)) s.state <;> simp [Except.map]
  · rw [h.get hi hk, get_hash P _ _ _ hq]

/-- Keys that run into the hash node of the partial trie. -/
example (K : Kind) (P : Profile) :
    (∀ v, (caseT K P 2).insert P (ofList ([2] ++ [5, 5])) v (caseS K P).state = .error .hashInsert) ∧
    (caseT K P 2).delete P (ofList ([2] ++ [5, 5])) (caseS K P).state = .error .hashDelete ∧
    (caseT K P 2).get P (ofList ([2] ++ [5, 5])) = .ok none :=
  C20_opaque (caseLive K P) (caseGet K P (by decide)) (x := Vector.replicate 32 35)
    (((caseLists₂ K P).2 [2] _).1 (by decide)) (by decide)

/-- C20: inserting a hash node onto an entry, or above one, panics. -/
theorem C20_onto (h : Live K M P kec s) (hi : s.hs[i]? = some t) {k r : Key}
    (hq : t.contents (k ++ r) ≠ none) (hk : k.length ≤ 127) (x : H256) :
    ∃ e, t.insert P (ofList k) (.hash x) s.state = .error e := by
  obtain ⟨e, he⟩ := insert_onto (h := x) t.plain k r hq
  have := h.insert hi hk (.hash x)
  rw [he] at this
  revert this
  cases t.insert P (ofList k) (.hash x) s.state <;> simp [Except.map]

/-- A hash above two entries. -/
example (K : Kind) (P : Profile) (x : H256) :
    ∃ e, (caseT K P 0).insert P (ofList [2, 5]) (.hash x) (caseS K P).state = .error e :=
  C20_onto (caseLive K P) (caseGet K P (by decide)) (r := [5])
    (((caseLists₀ K P).some_iff _).2 (by decide)) (by decide) x

/-- A program with a hash node at `0x12`. -/
example : Kind.hashed.obs .debug kec0 [.new, .insert 0 [1, 2] (.hash (kec0 [])),
    .insert 0 [1, 3] (.val [7]), .get 0 [1, 2, 3]] = .ok [.unit, .unit, .unit, .val none] ∧
    Kind.hashed.obs .debug kec0 [.new, .insert 0 [1, 2] (.hash (kec0 [])),
    .insert 0 [1, 3] (.val [7]), .insert 0 [1, 2, 3] (.val [7])] = .error .hashInsert := by
  decide +kernel

/-! ## C37 -/

/-- C37: reached tries are canonical and bounded. -/
theorem C37_canonical (h : Reached K M P kec s) (ht : t ∈ s.hs) :
    t.Canonical ∧ t.PathsAtMost 127 :=
  ⟨canonical_of_plain t (h.canon ht).1, (plain_bound t).1 (h.canon ht).2⟩

/-- C37: no path of a reached trie is longer than the longest key. -/
theorem C37_paths (h : Reached K M P kec s) (ht : t ∈ s.hs) {b : Nat}
    (hb : ∀ k, t.contents k ≠ none → k.length ≤ b) : t.PathsAtMost b :=
  (plain_bound t).1 ((h.canon ht).1.bound hb)

/-- The longest key of the first trie has 4 nibbles, of the partial trie 2. -/
example (K : Kind) (P : Profile) : (caseT K P 0).Canonical ∧ (caseT K P 0).PathsAtMost 4 ∧ (caseT K P 2).PathsAtMost 2 := by
  refine ⟨(C37_canonical (caseReached K P) (caseMem K P (by decide))).1,
    C37_paths (caseReached K P) (caseMem K P (by decide)) fun k hk => ?_,
    C37_paths (caseReached K P) (caseMem K P (by decide)) fun k hk => ?_⟩
  · obtain ⟨x, hx, rfl⟩ := ((caseLists₀ K P).some_iff k).1 hk
    exact (by decide : ∀ x ∈ caseXs, x.1.length ≤ 4) x hx
  · obtain ⟨x, hx, rfl⟩ := ((caseLists₂ K P).some_iff k).1 hk
    exact (by decide : ∀ x ∈ caseYs, x.1.length ≤ 2) x hx

/-! ## C38 -/

/-- The handle that a call changes. -/
def Cmd.changes : Cmd → Nat → Prop
  | .insert i _ _, j => i = j
  | .extend i _, j => i = j
  | .delete i _, j => i = j
  | _, _ => False

/-- C38: in any state whatsoever, a call leaves all handles alone that it does not change. -/
theorem C38_frame {α S : Type} [TrieKind α S] (P : Profile) (kec : Bytes → H256) {s s' : Sys α S}
    {c : Cmd} {o : Obs} (h : s.exec P kec c = .ok (s', o)) {j : Nat} (hj : ¬ c.changes j)
    {t : Trie α} (ht : s.hs[j]? = some t) : s'.hs[j]? = some t := by
  have hlt : j < s.hs.length := (List.getElem?_eq_some_iff.1 ht).1
  have happ : ∀ l, (s.hs ++ l)[j]? = some t := fun l => by
    rw [List.getElem?_append_left hlt, ht]
  have hon : ∀ i (f : Trie α → R (Sys α S × Obs)), s.on i f = .ok (s', o) →
      (∀ u, f u = .ok (s', o) → s'.hs[j]? = some t) → s'.hs[j]? = some t := by
    intro i f h1 h2
    unfold Sys.on at h1
    split at h1
    · cases h1; exact ht
    · exact h2 _ h1
  cases c with
  | new =>
    simp only [Sys.exec, R_bind_eq_ok] at h
    obtain ⟨⟨u, st⟩, _, h⟩ := h
    cases h; exact happ _
  | fromIter xs =>
    simp only [Sys.exec, R_bind_eq_ok] at h
    obtain ⟨⟨u, st⟩, _, h⟩ := h
    cases h; exact happ _
  | clone i => exact hon i _ h fun u h => by cases h; exact happ _
  | insert i k v =>
    refine hon i _ h fun u h => ?_
    simp only [R_bind_eq_ok] at h
    obtain ⟨⟨u, st⟩, _, h⟩ := h
    cases h
    rw [List.getElem?_set_ne hj]; exact ht
  | extend i xs =>
    refine hon i _ h fun u h => ?_
    simp only [R_bind_eq_ok] at h
    obtain ⟨⟨u, st⟩, _, h⟩ := h
    cases h
    rw [List.getElem?_set_ne hj]; exact ht
  | delete i k =>
    refine hon i _ h fun u h => ?_
    simp only [R_bind_eq_ok] at h
    obtain ⟨⟨⟨u, r⟩, st⟩, _, h⟩ := h
    cases h
    rw [List.getElem?_set_ne hj]; exact ht
  | get i k =>
    refine hon i _ h fun u h => ?_
    simp only [R_bind_eq_ok] at h
    obtain ⟨r, _, h⟩ := h
    cases h; exact ht
  | hash i =>
    refine hon i _ h fun u h => ?_
    simp only [R_bind_eq_ok] at h
    obtain ⟨⟨r, st⟩, _, h⟩ := h
    cases h; exact ht
  | items i =>
    refine hon i _ h fun u h => ?_
    simp only [R_bind_eq_ok] at h
    obtain ⟨r, _, h⟩ := h
    cases h; exact ht
  | eq i k =>
    exact hon i _ h fun u h => hon k _ h fun u h => by cases h; exact ht
  | subset i ks =>
    refine hon i _ h fun u h => ?_
    simp only [R_bind_eq_ok] at h
    obtain ⟨⟨r, st⟩, _, h⟩ := h
    cases r <;> cases h
    · exact ht
    · exact happ _
  | subsets i kss =>
    refine hon i _ h fun u h => ?_
    simp only [R_bind_eq_ok] at h
    obtain ⟨⟨r, st⟩, _, h⟩ := h
    cases r <;> cases h
    · exact ht
    · exact happ _

/-- C38: a handle, in particular a clone, is not affected by any sequence of calls that change
other handles; in particular its contents, `get` and `items` stay the same. -/
theorem C38_run {α S : Type} [TrieKind α S] (P : Profile) (kec : Bytes → H256) (cs : List Cmd) :
    ∀ {s s' : Sys α S} {os : List Obs}, s.run P kec cs = .ok (s', os) → ∀ {j : Nat},
      (∀ c ∈ cs, ¬ c.changes j) → ∀ {t : Trie α}, s.hs[j]? = some t → s'.hs[j]? = some t := by
  induction cs with
  | nil => intro s s' os h j _ t ht; cases h; exact ht
  | cons c cs ih =>
    intro s s' os h j hj t ht
    simp only [Sys.run, R_bind_eq_ok] at h
    obtain ⟨⟨s₁, o⟩, h1, ⟨s₂, os'⟩, h2, h3⟩ := h
    cases h3
    exact ih h2 (fun c hc => hj c (by simp [hc])) (C38_frame P kec h1 (hj c (by simp)) ht)

/-- C38: the hash of a handle is not affected either. -/
theorem C38_hash [M.Safe] {s' : Sys K.Ann K.State} (h : Live K M P kec s) (cs : List Cmd)
    (hs : ∀ c ∈ cs, c.Short) (hp : ∀ c ∈ cs, permitted K M c) {os : List Obs}
    (hr : s.run P kec cs = .ok (s', os)) {j : Nat} (hj : ∀ c ∈ cs, ¬ c.changes j)
    (ht : s.hs[j]? = some t) :
    s'.hs[j]? = some t ∧
    (t.rootHash P kec s'.state).map (·.1) = (t.rootHash P kec s.state).map (·.1) := by
  have ht' := C38_run P kec cs hr hj ht
  exact ⟨ht', by rw [h.hash ht, (h.run cs hs hp hr).hash ht']⟩

/-- The first trie, while its clone is changed and others are made. -/
example (K : Kind) (P : Profile) {s' : Sys K.Ann K.State} {os : List Obs}
    (hr : (caseS K P).run P kec0 [.delete 1 [1, 5], .subset 0 [[2, 5, 5]], .clone 0, .delete 2 [1, 3], .hash 0] =
      .ok (s', os)) : s'.hs[0]? = some (caseT K P 0) ∧
    ((caseT K P 0).rootHash P kec0 s'.state).map (·.1) =
      ((caseT K P 0).rootHash P kec0 (caseS K P).state).map (·.1) :=
  C38_hash (caseLive K P) _ (by simp [Cmd.Short]) (by cases K <;> simp [permitted]) hr (by simp [Cmd.changes])
    (caseGet K P (by decide))

example : (match (caseS .hashed .release).run .release kec0 [.delete 1 [1, 5], .subset 0 [[2, 5, 5]], .clone 0,
    .delete 2 [1, 3], .hash 0] with | .ok (_, os) => some os | .error _ => none) = some [.val (some [13]), .unit,
    .unit, .val (some [9]), .root (Vector.replicate 32 74)] := by decide +kernel

/-- A clone and changes of both copies. -/
example : Kind.hashed.obs .debug kec0 [.new, .insert 0 [1, 2] (.val [7]), .clone 0,
    .insert 0 [1, 3] (.val [8]), .delete 1 [1, 2], .items 0, .items 1] =
    .ok [.unit, .unit, .unit, .unit, .val (some [7]),
      .items (packEntries [([1, 2], .val [7]), ([1, 3], .val [8])]), .items []] := by
  decide +kernel

end EthTrie
