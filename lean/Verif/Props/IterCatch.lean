import Verif.Props.Lazy
import Verif.Trie.IterCatch
import Verif.Spec.View

/-!
# Property C74: iterators after a panic of `next` was caught

`next` panics when it should return a key of more than 64 nibbles.  A caller that catches the panic can call
it again.  `Iter.nthC P n` is the result of the call number `n` of `next` when earlier panics were caught.
-/

namespace EthTrie

open Spec KMap LNode Nibbles

variable {K : Kind} {M : Mode} {P : Profile} {kec : Bytes → H256} {s : Sys K.Ann K.State} {i : Nat}
  {t : Trie K.Ann}

/-- No two different keys have more than 64 nibbles in common. -/
def KMap.ShortForks (m : KMap) : Prop :=
  ∀ k k' x, m k ≠ none → m k' ≠ none → k ≠ k' → x <+: k → x <+: k' → x.length ≤ 64

/-- No extension to a branch leads from a path of at most 64 nibbles to a longer one. -/
def Trie.NoCross {α : Type} (t : Trie α) : Prop :=
  ∀ q a n b cs v, t.NodeAt q (.ext a n (.branch b cs v)) → q.length ≤ 64 → q.length + n.count ≤ 64

theorem plain_noCross {α : Type} (t : Trie α) : ∀ d : Nat,
    (∀ q a n b cs v, t.NodeAt q (.ext a n (.branch b cs v)) → d + q.length ≤ 64 →
      d + q.length + n.count ≤ 64) → t.plain.NoCross d := by
  induction t with
  | empty a => intro d _; trivial
  | hash a h => intro d _; trivial
  | leaf a n v => intro d _; trivial
  | ext a n c ih =>
    intro d h
    refine ⟨?_, ih _ fun q a' n' b cs v hn hd => ?_⟩
    · rintro ⟨cs, v, hc⟩ hd
      cases c with
      | branch b cs' v' =>
        have := h [] a n b cs' v' (.here _) hd
        simpa [toList_length] using this
      | _ => cases hc
    · have := h (n.toList ++ q) a' n' b cs v (.ext _ _ _ _ _ hn)
      rw [List.length_append] at this
      omega
  | branch a cs v ih =>
    intro d h i
    refine ih i _ fun q a' n' b cs' v' hn hd => ?_
    have := h (i :: q) a' n' b cs' v' (.branch _ _ _ _ _ _ hn)
    rw [List.length_cons] at this
    omega

theorem LNode.Canon.noCross : ∀ {l : LNode}, l.Canon → ∀ d : Nat,
    (∀ k k' x, absL l k ≠ none → absL l k' ≠ none → k ≠ k' → x <+: k → x <+: k' → d + x.length ≤ 64) →
    l.NoCross d := by
  intro l
  induction l with
  | empty => intro _ d _; trivial
  | hash h => intro _ d _; trivial
  | leaf n v => intro _ d _; trivial
  | ext n c ih =>
    intro hc d h
    refine ⟨?_, ih hc.2.2 _ fun k k' x hk hk' hne hx hx' => ?_⟩
    · rintro ⟨cs, v, rfl⟩ _
      obtain ⟨k, k', hk, hk', hne⟩ : ∃ k k', absL (.branch cs v) k ≠ none ∧
          absL (.branch cs v) k' ≠ none ∧ k ≠ k' := by
        obtain ⟨hch, hj⟩ := hc.2.2
        rcases hj with ⟨i, j, hij, hi, hj⟩ | ⟨hv, i, hi⟩
        · obtain ⟨q, hq⟩ := (hch i).exists_key hi
          obtain ⟨q', hq'⟩ := (hch j).exists_key hj
          exact ⟨i :: q, j :: q', hq, hq', fun e => hij (List.cons.inj e).1⟩
        · obtain ⟨q, hq⟩ := (hch i).exists_key hi
          exact ⟨[], i :: q, by simp [hv], hq, by simp⟩
      exact h (n ++ k) (n ++ k') n (by simpa using hk) (by simpa using hk') (by simpa using hne)
        (List.prefix_append _ _) (List.prefix_append _ _)
    · have := h (n ++ k) (n ++ k') (n ++ x) (by simpa using hk) (by simpa using hk') (by simpa using hne)
        ((List.prefix_append_right_inj _).2 hx) ((List.prefix_append_right_inj _).2 hx')
      rw [List.length_append] at this
      omega
  | branch cs v ih =>
    intro hc d h i
    refine ih i (hc.1 i) _ fun k k' x hk hk' hne hx hx' => ?_
    have := h (i :: k) (i :: k') (i :: x) hk hk' (by simpa using hne)
      ((List.prefix_cons_inj _).2 hx) ((List.prefix_cons_inj _).2 hx')
    rw [List.length_cons] at this
    omega

theorem Live.events (h : Live K M P kec s) (ht : t ∈ s.hs) (hc : t.plain.NoCross 0) :
    t.iter.events P = packEvents (t.plain.events []) := by
  obtain ⟨w, p, Z, h1, _⟩ := h.inv.ex
  rw [h1.hs, List.mem_map] at ht
  obtain ⟨a, ha, rfl⟩ := ht
  have hok := h1.ok a ha
  rw [hok.rep.plain] at hc ⊢
  exact iter_events (L := Kind.laws kec K) hok.rep hok.ext hc

theorem Live.nthC (h : Live K M P kec s) (hi : s.hs[i]? = some t) (hc : t.plain.NoCross 0) :
    ∃ (J : List (Key × ValOrHash)) (E : List (Option (Key × ValOrHash))), Lists J t.contents ∧
      (J.Pairwise fun x y => Before x.1 y.1) ∧
      E.filterMap id = J.filter (fun x => decide (x.1.length ≤ 64)) ∧
      ∀ n, t.iter.nthC P n = match E[n]? with
        | none => .ok none
        | some none => .error .assertFailed
        | some (some x) => .ok (some (ofList x.1, x.2)) := by
  refine ⟨t.plain.items [], (t.plain.events []).map Except.toOption, items_lists _, items_ordered _ _, ?_,
    fun n => ?_⟩
  · rw [List.filterMap_map]
    exact events_ok t.plain [] (by simp)
  · rw [nthC_events, h.events (List.mem_of_getElem? hi) hc, eventAt, packEvents, List.getElem?_map,
      List.getElem?_map]
    cases hE : (t.plain.events [])[n]? with
    | none => rfl
    | some x =>
      cases x with
      | ok x => rfl
      | error e =>
        have := events_error t.plain [] e (List.mem_of_getElem? hE)
        rw [this]; rfl

/-- C74, the part that holds: if no extension to a branch leads from a path of at most 64 nibbles to a
longer one, then a caller that catches the panics gets all entries with keys of at most 64 nibbles, each
exactly once and in order, possibly with panics between them, and `None` for ever after a finite number of
calls.  Without the condition this is false, see `C74_false`. -/
theorem C74_partial (h : Live K M P kec s) (hi : s.hs[i]? = some t) (hx : t.NoCross) :
    ∃ (J : List (Key × ValOrHash)) (E : List (Option (Key × ValOrHash))), Lists J t.contents ∧
      (J.Pairwise fun x y => Before x.1 y.1) ∧
      E.filterMap id = J.filter (fun x => decide (x.1.length ≤ 64)) ∧
      ∀ n, t.iter.nthC P n = match E[n]? with
        | none => .ok none
        | some none => .error .assertFailed
        | some (some x) => .ok (some (ofList x.1, x.2)) :=
  h.nthC hi (plain_noCross t 0 fun q a n b cs v hn hd => by
    have := hx q a n b cs v hn (by omega)
    omega)

/-- C74: on a canonical trie it suffices that no two different keys have more than 64 nibbles in common. -/
theorem C74_canonical_partial (h : Live K M P kec s) (hi : s.hs[i]? = some t) (hc : t.Canonical)
    (hx : t.contents.ShortForks) :
    ∃ (J : List (Key × ValOrHash)) (E : List (Option (Key × ValOrHash))), Lists J t.contents ∧
      (J.Pairwise fun x y => Before x.1 y.1) ∧
      E.filterMap id = J.filter (fun x => decide (x.1.length ≤ 64)) ∧
      ∀ n, t.iter.nthC P n = match E[n]? with
        | none => .ok none
        | some none => .error .assertFailed
        | some (some x) => .ok (some (ofList x.1, x.2)) :=
  h.nthC hi ((plain_of_canonical t hc).noCross 0 fun k k' x hk hk' hne h1 h2 => by
    have := hx k k' x hk hk' hne h1 h2
    omega)

/-- C74: for every trie, even one that was put together by hand, the calls come to an end: after a finite
number of items and panics `next` returns `None` for ever. -/
theorem C74_ends (t : Trie K.Ann) : ∃ N, ∀ n, N ≤ n → t.iter.nthC P n = .ok none :=
  ⟨(t.iter.events P).length, fun n hn => by rw [nthC_events, eventAt, List.getElem?_eq_none hn]⟩

/-- C74: up to and including the first panic it makes no difference that panics are caught. -/
theorem C74_first (t : Trie K.Ann) (n : Nat) (h : ∀ m < n, ∃ x, t.iter.nth P m = .ok x) :
    t.iter.nthC P n = t.iter.nth P n := by
  revert h
  generalize t.iter = it
  induction n generalizing it with
  | zero =>
    intro _
    rw [Iter.nth, Iter.nthC, ← nextC_eq, keepIter]
    cases (it.nextC P).1 <;> rfl
  | succ n ih =>
    intro h
    obtain ⟨x, hx⟩ := h 0 (by omega)
    have hn := nextC_eq P it
    rw [Iter.nth] at hx
    rw [Iter.nth, Iter.nthC]
    cases hr : it.nextC P with
    | mk r it' =>
      rw [hr] at hn
      cases r with
      | error e => rw [← hn] at hx; cases hx
      | ok o =>
        rw [← hn]
        refine ih it' fun m hm => ?_
        obtain ⟨y, hy⟩ := h (m + 1) (by omega)
        refine ⟨y, ?_⟩
        rw [Iter.nth, ← hn] at hy
        exact hy

/-! ## What goes wrong, and examples -/

/-- What the first calls of `next` return after some calls when panics are caught. -/
def Kind.nextsC (K : Kind) (P : Profile) (kec : Bytes → H256) (cs : List Cmd) (n : Nat) :
    Option (List (R (Option Item))) := do
  let (s, _) ← (K.run P kec cs).toOption
  let t ← s.hs[0]?
  return (List.range n).map (t.iter.nthC P)

/-- C74 is false in general: two keys have 72 nibbles in common.  The first call of `next` panics; the
second one returns the value of the key `[1, 1]`, but for the key `[1]`, which the trie does not have. -/
theorem C74_false : ∀ (K : Kind) (P : Profile) (kec : Bytes → H256),
    K.nextsC P kec [.new, .insert 0 (1 :: 0 :: List.replicate 70 5 ++ [0]) (.val [7]),
      .insert 0 (1 :: 0 :: List.replicate 70 5 ++ [1]) (.val [8]), .insert 0 [1, 1] (.val [9])] 3 =
      some [.error .assertFailed, .ok (some (ofList [1], .val [9])), .ok none] ∧
    K.obs P kec [.new, .insert 0 (1 :: 0 :: List.replicate 70 5 ++ [0]) (.val [7]),
      .insert 0 (1 :: 0 :: List.replicate 70 5 ++ [1]) (.val [8]), .insert 0 [1, 1] (.val [9]),
      .get 0 [1], .get 0 [1, 1]] = .ok [.unit, .unit, .unit, .unit, .val none, .val (some [9])] := by
  intro K ⟨P⟩ kec; cases K <;> cases P <;> exact ⟨by kernel_rfl, by kernel_rfl⟩

/-- A trie that meets the condition and has a path of 65 nibbles: an extension, a branch, a leaf. -/
example : let t : Trie Unit := .ext () (ofList [4, 2]) (.branch () (fun _ => .leaf ()
      (ofList (List.replicate 62 5)) [7]) [])
    t.NoCross ∧ ¬ t.PathsAtMost 64 := by
  refine ⟨?_, fun h => ?_⟩
  · intro q a n b cs v h _
    cases h with
    | here => decide
    | ext _ _ _ q' _ h =>
      cases h with
      | branch _ _ _ d q'' _ h => cases h
  · have := h.2.2 0
    revert this
    show ¬ (62 ≤ 61)
    decide

/-- The second of three keys has 65 nibbles: it is skipped. -/
example : ∀ (K : Kind) (P : Profile) (kec : Bytes → H256),
    K.nextsC P kec [.new, .insert 0 [3, 1] (.val [9]), .insert 0 (2 :: List.replicate 64 5) (.val [8]),
      .insert 0 [1, 4] (.val [7])] 5 =
      some [.ok (some (ofList [1, 4], .val [7])), .error .assertFailed,
        .ok (some (ofList [3, 1], .val [9])), .ok none, .ok none] := by
  intro K ⟨P⟩ kec; cases K <;> cases P <;> kernel_rfl

/-- A branch at the end of 64 nibbles: sixteen panics, then its own value, and then the next key. -/
example : ∀ (K : Kind) (P : Profile) (kec : Bytes → H256),
    K.nextsC P kec [.new, .insert 0 (1 :: List.replicate 63 5) (.val [7]),
      .insert 0 (1 :: List.replicate 64 5) (.val [8]), .insert 0 [3, 1] (.val [9])] 19 =
      some (List.replicate 16 (.error .assertFailed) ++
        [.ok (some (ofList (1 :: List.replicate 63 5), .val [7])),
        .ok (some (ofList [3, 1], .val [9])), .ok none]) := by
  intro K ⟨P⟩ kec; cases K <;> cases P <;> kernel_rfl

end EthTrie
