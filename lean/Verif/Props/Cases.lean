import Verif.Spec.Rlp
import Verif.Props.Base
import Verif.Trie.ItemsAbs

/-!
# Concrete states that meet the hypotheses of the properties

The properties speak about tries in states that programs reach, and about what these tries store.  Here
are the states of a concrete program, and conditions on listed contents that can be evaluated.
-/

namespace EthTrie

open Spec KMap LNode Nibbles

/-! ### Listed contents -/

/-- A stored value, not a hash. -/
def ValOrHash.isVal : ValOrHash → Bool
  | .val _ => true
  | .hash _ => false

namespace Spec.Lists

variable {J : Entries} {m : KMap} (hJ : Lists J m)

include hJ in
theorem some_iff (q : Key) : m q ≠ none ↔ ∃ x ∈ J, x.1 = q := by
  constructor
  · intro h
    obtain ⟨v, hv⟩ := Option.ne_none_iff_exists'.1 h
    exact ⟨(q, v), (hJ.2 q v).2 hv, rfl⟩
  · rintro ⟨⟨q, v⟩, h, rfl⟩ e
    rw [(hJ.2 q v).1 h] at e
    cases e

include hJ in
theorem none_of {q : Key} (h : ∀ x ∈ J, x.1 ≠ q) : m q = none := by
  by_contra e
  obtain ⟨x, hx, e⟩ := (hJ.some_iff q).1 e
  exact h x hx e

/-- `KMap.Below` of listed contents. -/
def below (J : Entries) (k : Key) : Bool := J.any fun x => decide (k <+: x.1 ∧ k ≠ x.1)

include hJ in
theorem below_iff (k : Key) : m.Below k ↔ below J k = true := by
  simp only [below, List.any_eq_true, decide_eq_true_eq]
  constructor
  · rintro ⟨d, r, h⟩
    obtain ⟨x, hx, e⟩ := (hJ.some_iff _).1 h
    refine ⟨x, hx, ?_, ?_⟩
    · rw [e]; exact List.prefix_append _ _
    · rw [e]; exact fun h => by simpa using congrArg List.length h
  · rintro ⟨x, hx, ⟨t, ht⟩, hne⟩
    cases t with
    | nil => exact absurd (by simpa using ht) hne
    | cons d r => exact ⟨d, r, (hJ.some_iff _).2 ⟨x, hx, ht.symm⟩⟩

/-- `KMap.Forks` of listed contents. -/
def forks (J : Entries) (k : Key) : Bool := J.any fun x => J.any fun y =>
  decide (k <+: x.1 ∧ k <+: y.1 ∧ k ≠ x.1 ∧ k ≠ y.1 ∧ x.1[k.length]? ≠ y.1[k.length]?)

include hJ in
theorem forks_of {k : Key} (h : forks J k = true) : m.Forks k := by
  simp only [forks, List.any_eq_true, decide_eq_true_eq] at h
  obtain ⟨x, hx, y, hy, ⟨s, hs⟩, ⟨t, ht⟩, h1, h2, h3⟩ := h
  cases s with
  | nil => exact absurd (by simpa using hs) h1
  | cons d r =>
    cases t with
    | nil => exact absurd (by simpa using ht) h2
    | cons e s =>
      refine ⟨d, e, r, s, fun e' => h3 ?_, (hJ.some_iff _).2 ⟨x, hx, hs.symm⟩,
        (hJ.some_iff _).2 ⟨y, hy, ht.symm⟩⟩
      rw [← hs, ← ht, e']
      simp

/-- `KMap.LoneVal` of listed contents. -/
def lone (J : Entries) (k : Key) : Bool := J.any fun x =>
  decide (k <+: x.1 ∧ x.2.isVal = true) && J.all fun y => decide (k <+: y.1 → y.1 = x.1)

include hJ in
theorem lone_iff (k : Key) : m.LoneVal k ↔ lone J k = true := by
  simp only [lone, List.any_eq_true, Bool.and_eq_true, decide_eq_true_eq, List.all_eq_true]
  constructor
  · rintro ⟨q, v, h1, h2⟩
    refine ⟨(k ++ q, .val v), (hJ.2 _ _).2 h1, ⟨List.prefix_append _ _, rfl⟩, ?_⟩
    rintro ⟨y, w⟩ hy ⟨r, hr⟩
    have := h2 r ((hJ.some_iff _).2 ⟨_, hy, hr.symm⟩)
    rw [this] at hr
    exact hr.symm
  · rintro ⟨⟨x, v⟩, hx, ⟨⟨q, hq⟩, hv⟩, h⟩
    cases v with
    | hash h => cases hv
    | val b =>
      refine ⟨q, b, (hJ.2 _ _).1 (hq ▸ hx), fun r hr => ?_⟩
      obtain ⟨y, hy, e⟩ := (hJ.some_iff _).1 hr
      have := h y hy (e ▸ List.prefix_append _ _)
      rw [e, ← hq] at this
      exact List.append_cancel_left this

/-- Whether no hash is stored on the way to a key. -/
def noHash (J : Entries) (k : Key) : Bool := J.all fun x => x.2.isVal || !decide (x.1 <+: k)

include hJ in
theorem noHash_of {k : Key} (h : noHash J k = true) : m.NoHashOn k := by
  intro q x hq hp
  have := List.all_eq_true.1 h (q, .hash x) ((hJ.2 _ _).2 hq)
  simp [ValOrHash.isVal, hp] at this

/-- Whether all keys are short. -/
def short (J : Entries) : Bool := J.all fun x => decide (x.1.length ≤ 64)

include hJ in
theorem short_of (h : short J = true) : m.Short := by
  intro k hk
  obtain ⟨x, hx, rfl⟩ := (hJ.some_iff _).1 hk
  simpa using List.all_eq_true.1 h x hx

/-- `KMap.InsertOK` of listed contents, for a value. -/
def insertOK (J : Entries) (k : Key) (v : Bytes) : Bool :=
  noHash J k && (J.all fun x => !decide (x.2 = .val [] ∧ x.1 <+: k ∧ x.1 ≠ k)) &&
  (!below J k || !decide (v = [])) &&
  (J.any (fun x => decide (x.1 = k)) || !below J k || forks J k || lone J k)

include hJ in
theorem insertOK_of {k : Key} {v : Bytes} (h : insertOK J k v = true) : m.InsertOK k (.val v) := by
  simp only [insertOK, Bool.and_eq_true] at h
  obtain ⟨⟨⟨h1, h2⟩, h3⟩, h4⟩ := h
  refine ⟨hJ.noHash_of h1, fun q hq hp => ?_, fun hb e => ?_, fun x _ => ?_, fun x e => by cases e⟩
  · by_contra hne
    have := List.all_eq_true.1 h2 (q, .val []) ((hJ.2 _ _).2 hq)
    simp [hp, hne] at this
  · cases e
    rw [(hJ.below_iff k).1 hb] at h3
    cases h3
  · simp only [Bool.or_eq_true, Bool.not_eq_true', List.any_eq_true, decide_eq_true_eq] at h4
    rcases h4 with ((h | h) | h) | h
    · exact .inl ((hJ.some_iff k).2 h)
    · exact .inr (.inl fun e => by rw [(hJ.below_iff k).1 e] at h; cases h)
    · exact .inr (.inr (.inl (hJ.forks_of h)))
    · exact .inr (.inr (.inr ((hJ.lone_iff k).2 h)))

/-- `KMap.PathOK` of listed contents, for an absent key. -/
def pathOK (J : Entries) (k : Key) : Bool := decide (∀ n < k.length + 1, (J.all fun x =>
  decide (∀ j < x.1.length + 1, k.take n <+: x.1.take j → k.length < (x.1.take j).length →
    (J.all fun y => decide (k.take n <+: y.1 → x.1.take j <+: y.1)) = true →
    lone J (k.take n) = true)) = true)

include hJ in
theorem pathOK_of {k : Key} (h : pathOK J k = true) : m.PathOK k := by
  intro _ q p hq hqp hl hb hall
  obtain ⟨d, r, hr⟩ := hb
  obtain ⟨x, hx, e⟩ := (hJ.some_iff _).1 hr
  have hpx : p <+: x.1 := by rw [e]; exact hall _ hr (List.prefix_append _ _)
  have eq := List.prefix_iff_eq_take.1 hq
  have ep := List.prefix_iff_eq_take.1 hpx
  rw [hJ.lone_iff, eq]
  simp only [pathOK, List.all_eq_true, decide_eq_true_eq] at h
  refine h q.length (by have := hq.length_le; omega) x hx p.length
    (by have := hpx.length_le; omega) ?_ ?_ ?_
  · rw [← eq, ← ep]; exact hqp
  · rw [← ep]; exact hl
  · intro y hy h'
    rw [← ep]
    rw [← eq] at h'
    exact hall _ ((hJ.some_iff _).2 ⟨y, hy, rfl⟩) h'

/-- `KMap.GetOK` of listed contents. -/
def getOK (P : Profile) (J : Entries) (k : Key) : Bool :=
  J.any (fun x => decide (x.1 = k)) ||
  (J.all (fun x => !x.2.isVal || !decide (x.1 <+: k) || below J x.1) && !lone J k &&
    (!P.overflowChecks || pathOK J k) &&
    (P.overflowChecks || J.all fun x => decide (x.2.isVal = true → k.length < x.1.length →
      (∃ n < k.length + 1, x.1 = k.take n ++ List.replicate (x.1.length - (k.take n).length) 0) →
      below J x.1 = false)))

include hJ in
theorem getOK_of {P : Profile} {k : Key} (h : getOK P J k = true) : m.GetOK P k := by
  rw [getOK, Bool.or_eq_true] at h
  rcases h with h | h
  · have hk : m k ≠ none := (hJ.some_iff k).2 (by simpa using h)
    exact ⟨fun e => absurd e hk, fun e => absurd e hk, fun _ e => absurd e hk, fun _ e => absurd e hk⟩
  simp only [Bool.and_eq_true] at h
  obtain ⟨⟨⟨h1, h2⟩, h3⟩, h4⟩ := h
  refine ⟨fun _ q x hq hp => ?_, fun _ hl => ?_, fun hP => ?_, fun hP _ q j x hq hl hx hb => ?_⟩
  · have := List.all_eq_true.1 h1 (q, .val x) ((hJ.2 _ _).2 hq)
    rw [hJ.below_iff]
    simpa [ValOrHash.isVal, hp] using this
  · rw [(hJ.lone_iff k).1 hl] at h2
    cases h2
  · rw [hP] at h3
    exact hJ.pathOK_of h3
  · rw [hP] at h4
    have e := List.prefix_iff_eq_take.1 hq
    have := of_decide_eq_true (List.all_eq_true.1 h4 (_, .val x) ((hJ.2 _ _).2 hx)) rfl
      (by simpa using hl) ⟨q.length, by have := hq.length_le; omega, by rw [← e]; simp⟩
    rw [(hJ.below_iff _).1 hb] at this
    cases this

/-- `KMap.DeleteOK` of listed contents. -/
def deleteOK (J : Entries) (k : Key) : Bool :=
  noHash J k && if J.any (fun x => decide (x.1 = k)) then
    (!below J k || forks J k) && decide (∀ n < k.length,
      J.any (fun x => decide (x.1 = k.take n)) = true →
      J.all (fun y => decide (k.take (n + 1) <+: y.1 → y.1 = k)) = true →
      (J.any fun x => J.any fun y => decide (k.take n <+: x.1 ∧ k.take n <+: y.1 ∧ n < x.1.length ∧
        n < y.1.length ∧ x.1[n]? ≠ y.1[n]? ∧ x.1[n]? ≠ k[n]? ∧ y.1[n]? ≠ k[n]?)) = true)
  else !below J k || lone J k

include hJ in
theorem deleteOK_of {k : Key} (h : deleteOK J k = true) : m.DeleteOK k := by
  rw [deleteOK, Bool.and_eq_true] at h
  obtain ⟨h1, h2⟩ := h
  have hs : J.any (fun x => decide (x.1 = k)) = true ↔ m k ≠ none := by
    rw [hJ.some_iff]; simp
  refine ⟨hJ.noHash_of h1, fun hk => ?_, fun hk => ?_, fun hk q d r e hq hall => ?_⟩
  · rw [if_neg (fun h => hs.1 h hk), Bool.or_eq_true] at h2
    rcases h2 with h | h
    · exact .inl fun e => by rw [(hJ.below_iff k).1 e] at h; cases h
    · exact .inr ((hJ.lone_iff k).2 h)
  · rw [if_pos (hs.2 hk), Bool.and_eq_true, Bool.or_eq_true] at h2
    rcases h2.1 with h | h
    · exact .inl fun e => by rw [(hJ.below_iff k).1 e] at h; cases h
    · exact .inr (hJ.forks_of h)
  · rw [if_pos (hs.2 hk), Bool.and_eq_true] at h2
    have e1 : k.take q.length = q := by rw [e]; simp
    have e2 : k.take (q.length + 1) = q ++ [d] := by
      rw [e, List.take_append, List.take_of_length_le (by omega)]; simp
    have e3 : k[q.length]? = some d := by rw [e]; simp
    have h3 := h2.2
    simp only [List.all_eq_true, List.any_eq_true, decide_eq_true_eq] at h3
    obtain ⟨x, hx, y, hy, a1, a2, a3, a4, a5, a6, a7⟩ := h3 q.length
      (by rw [e]; simp) (by rw [e1]; exact (hJ.some_iff q).1 hq) (by
        intro y hy ⟨s, hs⟩
        rw [e2] at hs
        have := hall s ((hJ.some_iff _).2 ⟨y, hy, by rw [← hs]; simp⟩)
        rw [← hs, this, e]; simp)
    rw [e1] at a1 a2
    obtain ⟨s, hs⟩ := a1
    obtain ⟨t, ht⟩ := a2
    rw [← hs] at a3 a5 a6
    rw [← ht] at a4 a5 a7
    cases s with
    | nil => simp at a3
    | cons f s =>
      cases t with
      | nil => simp at a4
      | cons g t =>
        simp only [e3, List.getElem?_append_right (Nat.le_refl _), Nat.sub_self, List.getElem?_cons_zero,
          ne_eq, Option.some.injEq] at a5 a6 a7
        exact ⟨f, g, s, t, a5, a6, a7, (hJ.some_iff _).2 ⟨x, hx, hs.symm⟩,
          (hJ.some_iff _).2 ⟨y, hy, ht.symm⟩⟩

include hJ in
theorem ext {J' : Entries} {m' : KMap} (hJ' : Lists J' m') (h : J.Perm J') : m = m' := by
  funext k
  cases hk : m k with
  | some v => exact ((hJ'.2 k v).1 (h.mem_iff.1 ((hJ.2 k v).2 hk))).symm
  | none =>
    by_contra hne
    obtain ⟨v, hv⟩ := Option.ne_none_iff_exists'.1 (Ne.symm hne)
    rw [(hJ.2 k v).1 (h.mem_iff.2 ((hJ'.2 k v).2 hv))] at hk
    cases hk

include hJ in
/-- A further entry. -/
theorem put {k : Key} (hk : ∀ x ∈ J, x.1 ≠ k) (v : ValOrHash) : Lists ((k, v) :: J) (m.put k v) := by
  refine ⟨List.nodup_cons.2 ⟨fun h => ?_, hJ.1⟩, fun q w => ?_⟩
  · obtain ⟨x, hx, e⟩ := List.mem_map.1 h
    exact hk x hx e
  · by_cases hq : q = k
    · subst hq
      simp only [KMap.put, if_true, List.mem_cons, Prod.mk.injEq, true_and, Option.some.injEq]
      exact ⟨fun h => h.elim Eq.symm fun h => absurd rfl (hk _ h), fun h => .inl h.symm⟩
    · simp only [KMap.put, hq, if_false, List.mem_cons, Prod.mk.injEq, false_and, false_or]
      exact hJ.2 q w

end Spec.Lists

/-! ### Entries that are stored one after the other -/

theorem putAll_lists : ∀ (xs : List (Key × ValOrHash)) (m : KMap), (xs.map (·.1)).Nodup →
    ∀ k, (∀ v, (k, v) ∈ xs → m.putAll xs k = some v) ∧ (k ∉ xs.map (·.1) → m.putAll xs k = m k)
  | [], m, _, k => ⟨nofun, fun _ => rfl⟩
  | (a, b) :: xs, m, hn, k => by
    simp only [List.map_cons, List.nodup_cons] at hn
    obtain ⟨h1, h2⟩ := putAll_lists xs (m.put a b) hn.2 k
    refine ⟨fun v hv => ?_, fun hk => ?_⟩
    · rcases List.mem_cons.1 hv with e | e
      · cases e
        rw [putAll, h2 hn.1]
        simp [KMap.put]
      · exact h1 v e
    · simp only [List.map_cons, List.mem_cons, not_or] at hk
      rw [putAll, h2 hk.2]
      simp [KMap.put, hk.1]

theorem lists_putAll (xs : List (Key × ValOrHash)) (hn : (xs.map (·.1)).Nodup) :
    Lists xs (KMap.empty.putAll xs) := by
  refine ⟨hn, fun k x => ⟨fun h => (putAll_lists xs _ hn k).1 x h, fun h => ?_⟩⟩
  by_cases hk : k ∈ xs.map (·.1)
  · obtain ⟨⟨a, b⟩, h3, rfl⟩ := List.mem_map.1 hk
    rw [(putAll_lists xs _ hn a).1 b h3] at h
    cases h
    exact h3
  · rw [(putAll_lists xs _ hn k).2 hk] at h
    cases h

/-! ### States -/

/-- Canonical form is decidable. -/
def Trie.canonicalDec {α : Type} : (t : Trie α) → Decidable t.Canonical
  | .empty _ => .isTrue trivial
  | .hash _ _ => .isTrue trivial
  | .leaf _ _ _ => .isTrue trivial
  | .branch _ cs v =>
    have : ∀ i, Decidable (cs i).Canonical := fun i => (cs i).canonicalDec
    have : ∀ i, Decidable (cs i).Occupied := fun i => by cases cs i <;> (unfold Trie.Occupied; infer_instance)
    inferInstanceAs (Decidable ((∀ i, (cs i).Canonical) ∧
      ((∃ i j, i ≠ j ∧ (cs i).Occupied ∧ (cs j).Occupied) ∨ (v ≠ [] ∧ ∃ i, (cs i).Occupied))))
  | .ext _ n c =>
    have : Decidable c.Canonical := c.canonicalDec
    have : Decidable c.BranchOrHash := by cases c <;> (unfold Trie.BranchOrHash; infer_instance)
    inferInstanceAs (Decidable (n.count ≠ 0 ∧ c.BranchOrHash ∧ c.Canonical))

instance {α : Type} : DecidablePred (Trie.Canonical (α := α)) := Trie.canonicalDec

/-- The state after a program that does not panic. -/
def Kind.after (K : Kind) (P : Profile) (cs : List Cmd) : Sys K.Ann K.State :=
  match K.run P kec0 cs with
  | .ok (s, _) => s
  | .error _ => K.start

/-- A trie of this state. -/
def Kind.trie (K : Kind) (P : Profile) (cs : List Cmd) (i : Nat) : Trie K.Ann :=
  match (K.after P cs).hs[i]? with
  | some t => t
  | none => .empty (K.trieKind.alloc K.init).1

section
variable {K : Kind} {M : Mode} {P : Profile} {cs : List Cmd}

theorem Kind.after_live (h : (K.obs P kec0 cs).isOk = true) (hs : ∀ c ∈ cs, c.Short)
    (hp : ∀ c ∈ cs, permitted K M c) : Live K M P kec0 (K.after P cs) := by
  unfold Kind.after
  unfold Kind.obs at h
  cases e : K.run P kec0 cs with
  | error e' => rw [e] at h; cases h
  | ok r => exact Live.start.run cs hs hp e

theorem Kind.trie_get {i : Nat} (h : i < (K.after P cs).hs.length) :
    (K.after P cs).hs[i]? = some (K.trie P cs i) := by
  unfold Kind.trie
  rw [List.getElem?_eq_getElem h]

theorem Trie.lists {α : Type} (t : Trie α) : Lists (t.plain.items []) t.contents := items_lists t.plain

end

/-- Values under keys some of which are prefixes of others; empty values and hashes are not among them. -/
def caseXs : List (Key × ValOrHash) :=
  [([1], .val [7]), ([1, 2], .val [8]), ([1, 3], .val [9]), ([1, 4], .val [10]),
    ([2, 5, 5], .val (List.replicate 40 1)), ([2, 5, 6, 7], .val [2]), ([2, 5, 6, 8], .val (List.replicate 33 3))]

/-- A trie, a changed clone of it and a subset of it. -/
def caseProg : List Cmd :=
  [.fromIter caseXs, .hash 0, .clone 0, .insert 1 [1, 5] (.val [13]), .subset 0 [[1, 2]]]

/-- The state after `caseProg`. -/
def caseS (K : Kind) (P : Profile) : Sys K.Ann K.State := K.after P caseProg

/-- The tries of this state. -/
def caseT (K : Kind) (P : Profile) (i : Nat) : Trie K.Ann := K.trie P caseProg i

theorem caseLive (K : Kind) (P : Profile) : Live K .noEmptySubset P kec0 (caseS K P) := by
  refine Kind.after_live ?_ ?_ ?_
  · obtain ⟨P⟩ := P; cases K <;> cases P <;> decide +kernel
  · intro c hc
    simp only [caseProg, List.mem_cons, List.not_mem_nil, or_false] at hc
    rcases hc with rfl | rfl | rfl | rfl | rfl
    · show ∀ x ∈ caseXs, x.1.length ≤ 127
      decide
    all_goals simp [Cmd.Short]
  · cases K <;> simp [caseProg, permitted]

theorem caseReached (K : Kind) (P : Profile) : Reached K .noEmptySubset P kec0 (caseS K P) := by
  refine .of (caseLive K P) ?_
  obtain ⟨P⟩ := P; cases K <;> cases P <;> decide +kernel

theorem caseGet (K : Kind) (P : Profile) {i : Nat} (h : i < 3) : (caseS K P).hs[i]? = some (caseT K P i) := by
  refine Kind.trie_get (Nat.lt_of_lt_of_le h (Nat.le_of_eq ?_))
  obtain ⟨P⟩ := P; cases K <;> cases P <;> decide +kernel

theorem caseMem (K : Kind) (P : Profile) {i : Nat} (h : i < 3) : caseT K P i ∈ (caseS K P).hs :=
  List.mem_of_getElem? (caseGet K P h)

theorem caseContents {K : Kind} {P : Profile} {i : Nat} (h : i < 3) {m : KMap}
    (hm : (caseS K P).contents[i]? = some m) : m = (caseT K P i).contents := by
  rw [Sys.contents, List.getElem?_map, caseGet K P h] at hm
  exact (Option.some.inj hm).symm

theorem caseLists₀ (K : Kind) (P : Profile) : Lists caseXs (caseT K P 0).contents := by
  have e : ((caseT K P 0).plain.items []).Perm caseXs := by
    obtain ⟨P⟩ := P; cases K <;> cases P <;> decide +kernel
  have h := (caseT K P 0).lists
  exact ⟨(e.map _).nodup_iff.1 h.1, fun k v => by rw [← e.mem_iff]; exact h.2 k v⟩

theorem caseLists₁ (K : Kind) (P : Profile) : Lists (([1, 5], .val [13]) :: caseXs) (caseT K P 1).contents := by
  have e : ((caseT K P 1).plain.items []).Perm (([1, 5], .val [13]) :: caseXs) := by
    obtain ⟨P⟩ := P; cases K <;> cases P <;> decide +kernel
  have h := (caseT K P 1).lists
  exact ⟨(e.map _).nodup_iff.1 h.1, fun k v => by rw [← e.mem_iff]; exact h.2 k v⟩

/-- What the subset stores. -/
def caseYs : List (Key × ValOrHash) :=
  [([1], .val [7]), ([1, 2], .val [8]), ([1, 3], .val [9]), ([1, 4], .val [10]),
    ([2], .hash (Vector.replicate 32 35))]

theorem caseLists₂ (K : Kind) (P : Profile) : Lists caseYs (caseT K P 2).contents := by
  have e : ((caseT K P 2).plain.items []).Perm caseYs := by
    obtain ⟨P⟩ := P; cases K <;> cases P <;> decide +kernel
  have h := (caseT K P 2).lists
  exact ⟨(e.map _).nodup_iff.1 h.1, fun k v => by rw [← e.mem_iff]; exact h.2 k v⟩

attribute [irreducible] Kind.after Kind.trie caseS caseT

/-- The result is neither a panic nor an error. -/
def fine {α β γ : Type} : R (Except α β × γ) → Bool
  | .ok (.ok _, _) => true
  | _ => false

theorem fine_iff {α β γ : Type} : ∀ x : R (Except α β × γ), fine x = true ↔ ∃ t st, x = .ok (.ok t, st)
  | .ok (.ok t, st) => ⟨fun _ => ⟨t, st, rfl⟩, fun _ => rfl⟩
  | .ok (.error _, _) => ⟨nofun, fun ⟨_, _, h⟩ => by cases h⟩
  | .error _ => ⟨nofun, fun ⟨_, _, h⟩ => by cases h⟩

/-- A subset of the trie can be made. -/
theorem caseSubset (K : Kind) (P : Profile) : ∃ t' st,
    createTrieSubset P kec0 (caseT K P 0) ([[1, 2]].map Nibbles.ofList) (caseS K P).state = .ok (.ok t', st) :=
  (fine_iff _).1 (by obtain ⟨P⟩ := P; cases K <;> cases P <;> decide +kernel)

/-- The keys of two subsets, which have nothing in common. -/
def caseKss : List (List Key) := [[[1, 2], [1, 3]], [[2, 5, 6, 7]]]

/-- So can two subsets at once. -/
theorem caseSubsets (K : Kind) (P : Profile) : ∃ ts st,
    createTrieSubsets P kec0 (caseT K P 0) (caseKss.map fun ks => ks.map Nibbles.ofList) (caseS K P).state =
      .ok (.ok ts, st) :=
  (fine_iff _).1 (by obtain ⟨P⟩ := P; cases K <;> cases P <;> decide +kernel)

/-! ### More about the tries of this state -/

def Trie.pathsDec {α : Type} : (t : Trie α) → (b : Nat) → Decidable (t.PathsAtMost b)
  | .empty _, _ => .isTrue trivial
  | .hash _ _, _ => .isTrue trivial
  | .leaf _ n _, b => inferInstanceAs (Decidable (n.count ≤ b))
  | .ext _ n c, b =>
    have : Decidable (c.PathsAtMost (b - n.count)) := c.pathsDec _
    inferInstanceAs (Decidable (n.count ≤ b ∧ c.PathsAtMost (b - n.count)))
  | .branch _ cs _, b =>
    have : ∀ i, Decidable ((cs i).PathsAtMost (b - 1)) := fun i => (cs i).pathsDec _
    inferInstanceAs (Decidable (1 ≤ b ∧ ∀ i, (cs i).PathsAtMost (b - 1)))

instance {α : Type} (t : Trie α) (b : Nat) : Decidable (t.PathsAtMost b) := t.pathsDec b

def Trie.smallDec {α : Type} : (t : Trie α) → Decidable t.SmallValues
  | .empty _ => .isTrue trivial
  | .hash _ _ => .isTrue trivial
  | .leaf _ _ v => inferInstanceAs (Decidable (v.length < 2 ^ 64))
  | .ext _ _ c => c.smallDec
  | .branch _ cs v =>
    have : ∀ i, Decidable (cs i).SmallValues := fun i => (cs i).smallDec
    inferInstanceAs (Decidable (v.length < 2 ^ 64 ∧ ∀ i, (cs i).SmallValues))

instance {α : Type} : DecidablePred (Trie.SmallValues (α := α)) := Trie.smallDec

/-- A check for hash nodes. -/
def Trie.hashless {α : Type} : Trie α → Bool
  | .hash _ _ => false
  | .branch _ cs _ => (List.finRange 16).all fun i => (cs i).hashless
  | .ext _ _ c => c.hashless
  | _ => true

theorem Trie.noHash_of {α : Type} {t : Trie α} (h : t.hashless = true) : t.NoHash := by
  intro q u hu
  induction hu with
  | here t => cases t <;> first | (intro h'; exact h') | cases h
  | branch a cs v d q u _ ih => exact ih (List.all_eq_true.1 h d (List.mem_finRange d))
  | ext a n c q u _ ih => exact ih h

theorem caseCanonical (K : Kind) (P : Profile) : ∀ i < 3, (caseT K P i).Canonical := by
  obtain ⟨P⟩ := P; cases K <;> cases P <;> decide +kernel

theorem casePaths (K : Kind) (P : Profile) : ∀ i < 3, (caseT K P i).PathsAtMost 64 := by
  obtain ⟨P⟩ := P; cases K <;> cases P <;> decide +kernel

theorem caseSmall (K : Kind) (P : Profile) : ∀ i < 3, (caseT K P i).SmallValues := by
  obtain ⟨P⟩ := P; cases K <;> cases P <;> decide +kernel

theorem caseNoHash (K : Kind) (P : Profile) : ∀ i < 2, (caseT K P i).NoHash := by
  have h : ∀ i < 2, (caseT K P i).hashless = true := by
    obtain ⟨P⟩ := P; cases K <;> cases P <;> decide +kernel
  exact fun i hi => Trie.noHash_of (h i hi)

theorem caseNotHash (K : Kind) (P : Profile) : ∀ i < 3, ¬ (caseT K P i).IsHash := by
  have h : ∀ i < 3, (match caseT K P i with | .hash _ _ => false | _ => true) = true := by
    obtain ⟨P⟩ := P; cases K <;> cases P <;> decide +kernel
  intro i hi
  have := h i hi
  generalize caseT K P i = t at *
  cases t <;> first | (intro h'; exact h') | cases this

theorem caseShort (K : Kind) (P : Profile) : (caseT K P 0).contents.Short :=
  (caseLists₀ K P).short_of (by decide)

end EthTrie
