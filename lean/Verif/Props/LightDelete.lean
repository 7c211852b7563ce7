import Verif.Props.Light

/-!
# Property C89: deletions with subsets

As C88, with deletions of keys that the subset was made for.  When all other rows after a part of the
deleted key go on with one digit, the subset must have been made for a key that goes on with this digit, too.
-/

namespace EthTrie

open Spec KMap Nibbles

/-- If all other rows after a part of the key go on with the same digit, then one of the keys `hs` does. -/
def Spare (t : Table H256) (hs : List H256) (a : H256) : Prop :=
  (∃ v, (a, v) ∈ t) → ∀ q d j r, hashKeys.nibs a = q ++ d :: r → j ≠ d →
    (∃ x ∈ t, q ++ [j] <+: hashKeys.nibs x.1) →
    (∀ x ∈ t, x.1 ≠ a → q <+: hashKeys.nibs x.1 → q ++ [j] <+: hashKeys.nibs x.1) →
    ∃ b ∈ hs, q ++ [j] <+: hashKeys.nibs b

namespace LCall

/-- A call that uses allowed keys only, possibly a deletion with a subset. -/
def OKD (ts : List (Table H256)) (ps : List Perm) (c : LCall) : Prop :=
  c.OK ps ∨ ∃ i a hs t, c = .call (.delete i a) ∧ ps[i]? = some (some hs) ∧ ts[i]? = some t ∧ a ∈ hs ∧ Spare t hs a

/-- A program of such calls. -/
def AllOKD (kec : Bytes → H256) : List (Table H256) → List Perm → List LCall → Prop
  | _, _, [] => True
  | ts, ps, c :: cs => c.OKD ts ps ∧ AllOKD kec (c.asClone.on hashKeys kec ts).2 (c.perms ps) cs

end LCall

/-! ## The proof -/

section
variable {kec : Bytes → H256} {t : Table H256} {hs : List H256} {m f : KMap}

theorem Stands.remove (h : Stands kec (t, some hs) m) {a : H256} (ha : a ∈ hs) (hs' : Spare t hs a) :
    Stands kec (t.remove a, some hs) (m.erase (hashKeys.nibs a)) := by
  have hlen := h.fixedLen
  obtain ⟨f, h1, h2, -⟩ := h.cut
  have hopen : ∀ b ∈ hs, m.NoHashOn (hashKeys.nibs b) := h.open_
  refine ⟨⟨_, h1.remove a, ?_, nofun⟩, fun b hb =>
    Op.effect_noHash (hopen b hb) (.delete (hashKeys.nibs a))⟩
  refine cutOf_effects (os := [.delete (hashKeys.nibs a)]) h2 ?_ ?_
  · intro o ho
    rw [List.mem_singleton.1 ho]
    exact hopen a ha
  intro q x hq
  rcases h2.keep q _ hq with g | ⟨J, hJ, g, hl, -⟩
  · exact .inl g
  right
  show (f.erase (hashKeys.nibs a)).Joint q
  by_cases hst : f (hashKeys.nibs a) = none
  · have : f.erase (hashKeys.nibs a) = f := by
      funext r
      simp only [KMap.erase]
      split
      · rename_i e; rw [e, hst]
      · rfl
    rw [this]; exact g
  have hqa : ¬ q <+: hashKeys.nibs a := hopen a ha q x hq
  have other : ∀ r, r ≠ hashKeys.nibs a → f r ≠ none → f.erase (hashKeys.nibs a) r ≠ none := by
    intro r h3 h4
    rw [KMap.erase, if_neg h3]; exact h4
  have keep : ∀ r, q <+: r → f r ≠ none → f.erase (hashKeys.nibs a) r ≠ none := fun r h3 h4 =>
    other r (fun e => hqa (e ▸ h3)) h4
  have row : ∀ r, f r ≠ none → ∃ b v, (b, v) ∈ t ∧ r = hashKeys.nibs b := by
    intro r hr
    obtain ⟨e, he⟩ := Option.ne_none_iff_exists'.1 hr
    obtain ⟨b, v, g1, g2, -⟩ := h1.val he
    exact ⟨b, v, g1, g2⟩
  have hstored : ∀ b v, (b, v) ∈ t → f (hashKeys.nibs b) ≠ none := by
    intro b v hb
    rw [(h1.2 _ _).1 (Coding.mem_entries.2 ⟨b, v, hb, rfl, rfl⟩)]
    simp
  rcases g with (e | ⟨q', d, rfl, g⟩) | ⟨d, e, r, s, g1, g2, g3⟩ | ⟨g1, d, r, g2⟩
  · exact .inl (.inl e)
  · have hq64 : q'.length < 64 := by
      have := hlen.le _ (by rw [hq]; simp)
      simp at this
      omega
    have no : f q' = none := by
      by_contra hne
      obtain ⟨b, v, -, e⟩ := row q' hne
      have := hashKeys_length b
      rw [← e] at this
      omega
    obtain ⟨r₀, hr₀⟩ : ∃ r₀, f (q' ++ d :: r₀) ≠ none := by
      cases J with
      | nil => exact absurd hl (by simp [node, rlpStr])
      | cons z J =>
        refine ⟨z.1, ?_⟩
        have := (hJ.2 z.1 z.2).1 List.mem_cons_self
        rw [KMap.sub, List.append_assoc] at this
        exact fun e => by rw [List.singleton_append, e] at this; cases this
    have hr₁ : f.erase (hashKeys.nibs a) (q' ++ d :: r₀) ≠ none := keep _ ⟨r₀, by simp⟩ hr₀
    refine .inl (.inr ⟨q', d, rfl, .inr ?_⟩)
    by_contra hnf
    -- all rows but the deleted one
    have only : ∀ e r, e ≠ d → f (q' ++ e :: r) ≠ none → q' ++ e :: r = hashKeys.nibs a := by
      intro e r h3 h4
      by_contra hne
      exact hnf ⟨e, d, r, r₀, h3, other _ hne h4, hr₁⟩
    have hex : ∃ e r, e ≠ d ∧ f (q' ++ e :: r) ≠ none := by
      rcases g with g | ⟨e₁, e₂, r₁, r₂, g1, g2, g3⟩
      · exact absurd no g
      · by_cases h3 : e₁ = d
        · exact ⟨e₂, r₂, fun h4 => g1 (h3.trans h4.symm), g3⟩
        · exact ⟨e₁, r₁, h3, g2⟩
    obtain ⟨e, r, h3, h4⟩ := hex
    obtain ⟨b₀, v₀, k1, k2⟩ := row _ hst
    have hat : ∃ v, (a, v) ∈ t := ⟨v₀, by rw [Coding.nibs_inj k2]; exact k1⟩
    obtain ⟨b₁, v₁, k3, k4⟩ := row _ hr₀
    obtain ⟨b, hb, hb'⟩ := hs' hat q' e d r (only e r h3 h4).symm (Ne.symm h3)
      ⟨(b₁, v₁), k3, by rw [← k4]; exact ⟨r₀, by simp⟩⟩ (by
        rintro ⟨b, v⟩ hb hne ⟨z, hz⟩
        simp only at hne hz ⊢
        cases z with
        | nil =>
          exfalso
          rw [List.append_nil] at hz
          exact hstored b v hb (by rw [← hz]; exact no)
        | cons e' z =>
          by_cases h5 : e' = d
          · subst h5
            exact ⟨z, by simpa using hz⟩
          · have := only e' z h5 (by rw [hz]; exact hstored b v hb)
            rw [hz] at this
            exact absurd (Coding.nibs_inj this) hne)
    exact hopen b hb _ x hq hb'
  · exact .inr (.inl ⟨d, e, r, s, g1, keep _ (List.prefix_append _ _) g2, keep _ (List.prefix_append _ _) g3⟩)
  · exact .inr (.inr ⟨keep _ List.prefix_rfl g1, d, r, keep _ (List.prefix_append _ _) g2⟩)

variable {K : Kind} {P : Profile} {s : Sys K.Ann K.State}

theorem LCall.stepD (c : LCall) {zs : List (Table H256 × Perm)} (hr : Reached K .noEmptySubset P kec s)
    (hz : List.Forall₂ (Stands kec) zs s.contents) (hc : c.OKD (zs.map (·.1)) (zs.map (·.2))) :
    ∃ s' zs', s.exec P kec c.cmd = .ok (s', (c.asClone.on hashKeys kec (zs.map (·.1))).1) ∧
      Reached K .noEmptySubset P kec s' ∧ List.Forall₂ (Stands kec) zs' s'.contents ∧
      zs'.map (·.1) = (c.asClone.on hashKeys kec (zs.map (·.1))).2 ∧ zs'.map (·.2) = c.perms (zs.map (·.2)) := by
  rcases hc with hc | ⟨i, a, hs, t, rfl, hp, ht, ha, hsp⟩
  · exact c.step hr hz hc
  rcases pairs_get i hz with ⟨g1, g2⟩ | ⟨⟨t', p'⟩, m, g1, g2, g3⟩
  · rw [List.getElem?_map, g1] at hp; cases hp
  rw [List.getElem?_map, g1] at hp ht
  cases hp; cases ht
  simp only [LCall.cmd, KCall.cmd, LCall.asClone, KCall.on, LCall.perms, List.getElem?_map, Coding.key_toList, g1,
    Option.map_some]
  obtain ⟨s', o, h1, h2, h3⟩ := hr.exec (c := .delete i (hashKeys.nibs a))
    (by
      refine ⟨by rw [hashKeys_length]; omega, fun m' hm => ?_⟩
      rw [g2] at hm; cases hm
      exact ⟨fixedLen_deleteOK g3.fixedLen (hashKeys_length a) (g3.open_ a ha), fun k hk => g3.fixedLen.le k hk⟩)
    (by cases K <;> trivial)
  simp only [Step, onMap, g2] at h2
  obtain ⟨rfl, e⟩ := h2
  refine ⟨s', zs.set i (t'.remove a, some hs), by rw [h1, g3.look (a := a) ha], h3,
    by rw [e]; exact forall₂_set (g3.remove ha hsp) i hz, by rw [List.map_set], ?_⟩
  rw [List.map_set]
  exact set_same (by rw [List.getElem?_map, g1]; rfl)

theorem LCall.runD : ∀ (cs : List LCall) {s : Sys K.Ann K.State} {zs : List (Table H256 × Perm)},
    Reached K .noEmptySubset P kec s → List.Forall₂ (Stands kec) zs s.contents →
    LCall.AllOKD kec (zs.map (·.1)) (zs.map (·.2)) cs →
    ∃ s', s.run P kec (cs.map LCall.cmd) =
      .ok (s', KCall.runOn hashKeys kec (zs.map (·.1)) (cs.map LCall.asClone))
  | [], s, _, _, _, _ => ⟨s, rfl⟩
  | c :: cs, s, zs, hr, hz, hc => by
    obtain ⟨s₁, zs', h1, h2, h3, h4, h5⟩ := c.stepD hr hz hc.1
    obtain ⟨s₂, h6⟩ := LCall.runD cs h2 h3 (by rw [h4, h5]; exact hc.2)
    refine ⟨s₂, ?_⟩
    simp only [List.map_cons, Sys.run, h1, R_bind_ok, h6, KCall.runOn, h4]
    rfl

end

/-! ## C89 -/

/-- C89: C88 with deletions of keys that a subset was made for, if the subset was made for a further key
wherever all other rows go on with one digit. -/
theorem C89_reference (K : Kind) (P : Profile) (kec : Bytes → H256) (cs : List LCall)
    (hc : LCall.AllOKD kec [] [] cs) :
    K.obs P kec (cs.map LCall.cmd) = .ok (KCall.runOn hashKeys kec [] (cs.map LCall.asClone)) := by
  obtain ⟨s, h⟩ := LCall.runD cs (.start (K := K) (P := P) (kec := kec)) (zs := []) .nil hc
  rw [Kind.obs, Kind.run, h]
  rfl

/-- C89: it returns what the program returns with clones in place of the subsets, for any trie types and
build profiles. -/
theorem C89_clone (K K' : Kind) (P P' : Profile) (kec : Bytes → H256) (cs : List LCall)
    (hc : LCall.AllOKD kec [] [] cs) : K.obs P kec (cs.map LCall.cmd) =
      K'.obs P' kec ((cs.map LCall.asClone).map (KCall.cmd hashKeys)) := by
  rw [C89_reference K P kec cs hc, C86_reference]

/-- It suffices that the subset was made for all rows. -/
theorem Spare.of_all {t : Table H256} {hs : List H256} (h : ∀ x ∈ t, x.1 ∈ hs) (a : H256) : Spare t hs a :=
  fun _ _ _ _ _ _ _ ⟨x, hx, hp⟩ _ => ⟨x.1, h x hx, hp⟩

/-- A subset of three rows for two of them, from which one of these is deleted. -/
def delProg : List LCall :=
  [.call (.fromIter [(hC, [3]), (hA, [1]), (hB, [2])]), .subset 0 [hA, hC], .call (.delete 1 hC), .call (.hash 1),
   .call (.delete 1 hC), .call (.insert 1 hA [4]), .call (.hash 1), .call (.delete 0 hC), .call (.insert 0 hA [4]),
   .call (.hash 0)]

theorem delProg_ok : LCall.AllOKD kec0 [] [] delProg := by
  have hsp : Spare [(hA, [1]), (hB, [2]), (hC, [3])] [hA, hC] hC := by
    rintro - q d j r e hj ⟨x, hx, hp⟩ -
    have hA' : hashKeys.nibs hA = List.replicate 64 1 := by decide +kernel
    have hB' : hashKeys.nibs hB = 1 :: (List.replicate 62 1 ++ [2]) := by decide +kernel
    have hC' : hashKeys.nibs hC = 15 :: 0 :: List.replicate 62 1 := by decide +kernel
    simp only [List.mem_cons, List.not_mem_nil, or_false] at hx
    rcases hx with rfl | rfl | rfl
    · exact ⟨hA, by simp, hp⟩
    · refine ⟨hA, by simp, ?_⟩
      rw [hB'] at hp
      rw [hC'] at e
      cases q with
      | nil =>
        obtain ⟨z, hz⟩ := hp
        have : j = 1 := by simpa using congrArg List.head? hz
        rw [this, hA']
        exact ⟨List.replicate 63 1, rfl⟩
      | cons n q =>
        obtain ⟨z, hz⟩ := hp
        have h1 : n = 1 := by simpa using congrArg List.head? hz
        have h2 : 15 = n := by simpa using congrArg List.head? e
        rw [h1] at h2
        exact absurd h2 (by decide)
    · obtain ⟨z, hz⟩ := hp
      rw [e, List.append_assoc, List.append_cancel_left_eq] at hz
      exact absurd (by simpa using congrArg List.head? hz) hj
  refine ⟨.inl trivial, .inl ?_, .inr ⟨1, hC, [hA, hC], _, rfl, rfl, rfl, by simp, hsp⟩, .inl trivial,
    .inr ⟨1, hC, [hA, hC], [(hA, [1]), (hB, [2])], rfl, rfl, rfl, by simp, ?_⟩, .inl ?_, .inl trivial, .inl ?_,
    .inl ?_, .inl trivial, trivial⟩
  · simp [LCall.OK, LCall.perms, Perm.Allows]
  · rintro ⟨v, hv⟩
    simp only [List.mem_cons, List.not_mem_nil, or_false, Prod.mk.injEq] at hv
    rcases hv with ⟨e, -⟩ | ⟨e, -⟩ <;> exact absurd e (by decide)
  · simp [LCall.OK, LCall.perms, Perm.Allows]
  · simp [LCall.OK, LCall.perms]
  · simp [LCall.OK, LCall.perms, Perm.Allows]

theorem delProg_runs : KCall.runOn hashKeys kec0 [] (delProg.map LCall.asClone) =
    [.unit, .unit, .val (some [3]), .root (Vector.replicate 32 56), .val none, .unit, .root (Vector.replicate 32 56),
     .val (some [3]), .unit, .root (Vector.replicate 32 56)] := by
  decide +kernel

example (K : Kind) (P : Profile) : K.obs P kec0 (delProg.map LCall.cmd) = .ok
    [.unit, .unit, .val (some [3]), .root (Vector.replicate 32 56), .val none, .unit, .root (Vector.replicate 32 56),
     .val (some [3]), .unit, .root (Vector.replicate 32 56)] := by
  rw [C89_reference K P kec0 _ delProg_ok, delProg_runs]

/-- C89: without the further key the root hash can be wrong: there are two rows, and the one that the
subset was made for is deleted. -/
theorem C89_false (K : Kind) (P : Profile) :
    K.obs P kec0 ([.call (.fromIter [(hC, [3]), (hA, [1])]), .subset 0 [hA], .call (.delete 1 hA),
      .call (.hash 1)].map LCall.cmd) = .ok [.unit, .unit, .val (some [1]), .root (Vector.replicate 32 35)] ∧
    K.obs P kec0 (([.fromIter [(hC, [3]), (hA, [1])], .clone 0, .delete 1 hA, .hash 1] :
      List (KCall H256)).map (KCall.cmd hashKeys)) =
        .ok [.unit, .unit, .val (some [1]), .root (Vector.replicate 32 36)] := by
  refine ⟨?_, ?_⟩ <;> obtain ⟨_ | _⟩ := P <;> cases K <;> kernel_rfl

end EthTrie
