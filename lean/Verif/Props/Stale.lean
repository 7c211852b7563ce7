import Verif.Props.Hashing
import Verif.Sys.CellSteps

/-!
# Properties C23 and C24 for all programs: when the cache cell of a root is stale
-/

namespace EthTrie

open Spec KMap LNode Nibbles

section
variable {K : Kind} {M : Mode} {P : Profile} {kec : Bytes → H256} {s : Sys K.Ann K.State}
  {i : Nat} {t : Trie K.Ann}

/-! ## What is read from a cell -/

/-- C24 for all programs: `hash()` returns what the cache cell of the root says, and if the cell is
empty what is computed from scratch from a copy of the trie without caches. -/
theorem C24_exact (h : Live K M P kec s) (hi : s.hs[i]? = some t) :
    (t.rootHash P kec s.state).map (·.1) = (t.bare.rootHash P kec ()).map fun r =>
      (TrieKind.cacheGet t.ann s.state).getD r.1 := by
  rw [h.hash_exact hi]
  have := bare_rootHash h hi
  revert this
  cases t.bare.rootHash P kec () with
  | error e => intro h; cases h
  | ok r =>
    intro h
    simp only [Except.map, Except.ok.injEq] at h ⊢
    rw [h]

/-- The state before the last call of `staleProg`. -/
theorem staleLive (P : Profile) : Live .hashed .any P kec0 (Kind.hashed.after P (staleProg.take 5)) := by
  refine Kind.after_live ?_ ?_ fun c _ => permitted_any _ _
  · obtain ⟨P⟩ := P; cases P <;> decide +kernel
  · simp only [staleProg, List.take, List.forall_mem_cons, Cmd.Short]
    exact ⟨trivial, by decide, trivial, by decide, nofun, nofun⟩

theorem staleGet (P : Profile) {i : Nat} (h : i < 3) :
    (Kind.hashed.after P (staleProg.take 5)).hs[i]? = some (Kind.hashed.trie P (staleProg.take 5) i) := by
  refine Kind.trie_get (Nat.lt_of_lt_of_le h (Nat.le_of_eq ?_))
  obtain ⟨P⟩ := P; cases P <;> decide +kernel

example (P : Profile) : ((Kind.hashed.trie P (staleProg.take 5) 1).rootHash P kec0
      (Kind.hashed.after P (staleProg.take 5)).state).map (·.1) =
    ((Kind.hashed.trie P (staleProg.take 5) 1).bare.rootHash P kec0 ()).map fun r =>
      (TrieKind.cacheGet (Kind.hashed.trie P (staleProg.take 5) 1).ann
        (Kind.hashed.after P (staleProg.take 5)).state).getD r.1 :=
  C24_exact (staleLive P) (staleGet P (by decide))

/-- C24 for all programs: `hash()` is wrong if and only if the cell of the root has other contents
than the hash of the trie. -/
theorem C24_wrong (h : Live K M P kec s) (hi : s.hs[i]? = some t) :
    (t.rootHash P kec s.state).map (·.1) ≠ (t.bare.rootHash P kec ()).map (·.1) ↔
    ∃ x, TrieKind.cacheGet t.ann s.state = some x ∧ (t.bare.rootHash P kec ()).map (·.1) ≠ .ok x := by
  rw [h.hash_exact hi, bare_rootHash h hi]
  cases TrieKind.cacheGet t.ann s.state with
  | none => simp
  | some x => simp [eq_comm]

/-- Handle 1 has a stale cell. -/
example (P : Profile) : ((Kind.hashed.trie P (staleProg.take 5) 1).rootHash P kec0
      (Kind.hashed.after P (staleProg.take 5)).state).map (·.1) ≠
    ((Kind.hashed.trie P (staleProg.take 5) 1).bare.rootHash P kec0 ()).map (·.1) := by
  refine (C24_wrong (staleLive P) (staleGet P (by decide))).2 ⟨Vector.replicate 32 45, ?_, ?_⟩ <;>
    obtain ⟨P⟩ := P <;> cases P <;> decide +kernel

end

/-! ## What is written to a cell -/

section
variable {M : Mode} {P : Profile} {kec : Bytes → H256}
  {s s' : Sys Kind.hashed.Ann Kind.hashed.State} {c : Cmd} {o : Obs} {k : Nat} {t : Trie Kind.hashed.Ann}

theorem Live.pstep (h : Live .hashed M P kec s) (hc : c.Short) (he : s.exec P kec c = .ok (s', o)) :
    ∃ w p Z w' p' Z', Inv (L := Kind.laws kec .hashed) kec w s p Z ∧
      Inv (L := Kind.laws kec .hashed) kec w' s' p' Z' ∧ p.exec P true kec c = .ok (p', o) := by
  obtain ⟨w, p, Z, h1, h2⟩ := h.refine
  have h3 := h2 c hc
  revert h3
  rcases hp : p.exec P Kind.hashed.cells kec c with e | ⟨p', o'⟩
  · intro h3
    rw [show s.exec P kec c = .error e from h3] at he
    cases he
  · rintro ⟨s'', w', Z', k1, k2, k3⟩
    rw [k1] at he
    cases he
    exact ⟨w, p, Z, w', p', Z', h1, k3, hp⟩

theorem hashed_real : (Kind.laws kec .hashed).real := (Kind.cells_real kec .hashed).1 rfl

theorem Inv.get {w} {p : PSys} {Z} (h : Inv (L := Kind.laws kec .hashed) kec w s p Z) {l : LNode}
    {f : Nat} (hk : p.hs[k]? = some (l, f)) : ∃ t, s.hs[k]? = some t ∧ t.plain = l := by
  have hp := h.plains
  have := congrArg (fun l => l[k]?) hp
  simp only [Sys.plains, List.getElem?_map, hk, Option.map_some, Option.map_eq_some_iff] at this
  exact this

/-- C24 for all programs, one call.  The handles stay, and
- a call of `insert`, `extend` or `delete` empties the cell of the trie and of all tries that share
  it;
- a call that makes a subset for no keys (`Sys.Fills`) leaves the cell alone if it has contents;
  otherwise it fills the cell with the hash of the trie, if its encoding has at least 32 bytes;
- everything else leaves the cells alone. -/
theorem C24_cells (h : Live .hashed M P kec s) (hc : c.Short) (he : s.exec P kec c = .ok (s', o))
    (hk : s.hs[k]? = some t) :
    ∃ t', s'.hs[k]? = some t' ∧
      (∀ i, c.mutates = some i → s.Shares i k → TrieKind.cacheGet t'.ann s'.state = none) ∧
      (∀ i u, s.hs[i]? = some u → s.Fills P kec i c → s.Shares i k →
        (TrieKind.cacheGet t.ann s.state ≠ none →
          TrieKind.cacheGet t'.ann s'.state = TrieKind.cacheGet t.ann s.state) ∧
        (TrieKind.cacheGet t.ann s.state = none → ∀ x,
          TrieKind.cacheGet t'.ann s'.state = some x ↔ u.plain.enc kec = .hashed x)) ∧
      ((∀ i, c.mutates = some i ∨ s.Fills P kec i c → ¬ s.Shares i k) →
        TrieKind.cacheGet t'.ann s'.state = TrieKind.cacheGet t.ann s.state) := by
  obtain ⟨w, p, Z, w', p', Z', h1, h2, hp⟩ := h.pstep hc he
  obtain ⟨f, g1, g2⟩ := h1.handle hk
  obtain ⟨l', q1, q2, q3, q4⟩ := PSys.exec_step hp g1
  obtain ⟨t', ht', rfl⟩ := h2.get q1
  obtain ⟨f', r1, r2⟩ := h2.handle ht'
  rw [q1] at r1
  cases r1
  have hsh : ∀ i, s.Shares i k ↔ ∃ u, p.hs[i]? = some (u, f) := by
    intro i
    rw [h1.shares hashed_real, g1]
    constructor
    · rintro ⟨a, b, ha, hb, e⟩
      cases hb
      exact ⟨a.1, by rw [ha]; simp only at e; rw [← e]⟩
    · rintro ⟨u, hu⟩
      exact ⟨_, _, hu, rfl, rfl⟩
  have hpl : ∀ {i u g}, p.hs[i]? = some (u, g) → ∃ t : Trie Kind.hashed.Ann, s.hs[i]? = some t ∧ t.plain = u :=
    fun hu => h1.get hu
  refine ⟨t', ht', ?_, ?_, ?_⟩
  · intro i hi hs
    obtain ⟨u, hu⟩ := (hsh i).1 hs
    rw [← r2]
    exact q2 i u hi hu
  · intro i u hu hf hs
    obtain ⟨l, hl⟩ := (hsh i).1 hs
    obtain ⟨u', hu', rfl⟩ := hpl hl
    rw [hu] at hu'
    cases hu'
    have := q3 i _ hl ((h.fills hu hc).1 hf)
    rw [← r2, ← g2, this]
    constructor
    · intro hne
      cases hfi : p.filled f with
      | none => exact absurd hfi hne
      | some x => rfl
    · intro hn x
      rw [hn, Option.none_or, PSys.longHash]
      cases u.plain.enc kec <;> simp
  · intro hn
    rw [← r2, ← g2]
    refine q4 (fun i u hi hu => hn i (.inl hi) ((hsh i).2 ⟨u, hu⟩)) fun i u hu hf => ?_
    obtain ⟨u', hu', rfl⟩ := hpl hu
    exact hn i (.inr ((h.fills hu' hc).2 hf)) ((hsh i).2 ⟨_, hu⟩)

/-- The cells of new tries that are not clones are empty. -/
theorem C24_new (h : Live .hashed M P kec s) (hc : c.Short) (hn : ∀ i, c ≠ .clone i)
    (he : s.exec P kec c = .ok (s', o)) (hj : s.hs.length ≤ k) (ht : s'.hs[k]? = some t) :
    TrieKind.cacheGet t.ann s'.state = none := h.new_none hc hn he hj ht

theorem PSys.push_get (p : PSys) (ls : List LNode) : ∀ j t, p.hs.length ≤ j →
    (p.push ls).hs[j]? = some t → t.2 = p.next + (j - p.hs.length) := by
  induction ls generalizing p with
  | nil => intro j t hj ht; rw [push, List.getElem?_eq_none hj] at ht; cases ht
  | cons l ls ih =>
    intro j t hj ht
    rw [push] at ht
    by_cases e : j = p.hs.length
    · subst e
      obtain ⟨fs, h1, _⟩ := push_hs ⟨p.hs ++ [(l, p.next)], p.filled, p.next + 1⟩ ls
      rw [h1] at ht
      simp at ht
      subst ht
      simp
    · have := ih _ j t (by simp; omega) ht
      simp at this
      omega

theorem PSys.exec_fams {p p' : PSys} (hc : ∀ i, c ≠ .clone i) (h : p.exec P true kec c = .ok (p', o))
    {j : Nat} {t : LNode × Nat} (hj : p.hs.length ≤ j) (ht : p'.hs[j]? = some t) :
    t.2 = p.next + (j - p.hs.length) := by
  have hold : ∀ {q : PSys}, p' = q → q.hs.length = p.hs.length → False := by
    rintro q rfl e
    rw [List.getElem?_eq_none (by omega)] at ht
    cases ht
  have hpush : ∀ {f : Nat → Option H256} {ls : List LNode}, p' = PSys.push ⟨p.hs, f, p.next⟩ ls →
      t.2 = p.next + (j - p.hs.length) := by
    rintro f ls rfl
    exact push_get ⟨p.hs, f, p.next⟩ ls j t hj ht
  have hon : ∀ {i : Nat} {f : LNode × Nat → R (PSys × Obs)}, p.on i f = .ok (p', o) →
      (∀ u, f u = .ok (p', o) → t.2 = p.next + (j - p.hs.length)) →
      t.2 = p.next + (j - p.hs.length) := by
    intro i f h g
    rcases on_ok h with ⟨_, h1, _⟩ | ⟨u, h1, h2⟩
    · exact (hold h1 rfl).elim
    · exact g u h2
  cases c with
  | new => cases h; exact hpush rfl
  | fromIter xs =>
    simp only [exec, R_bind_eq_ok] at h
    obtain ⟨l, _, h⟩ := h
    cases h; exact hpush rfl
  | clone i => exact absurd rfl (hc i)
  | insert i k v =>
    refine hon h fun u h => ?_
    simp only [R_bind_eq_ok] at h
    obtain ⟨l, _, h⟩ := h
    cases h; exact (hold rfl (by simp)).elim
  | extend i xs =>
    refine hon h fun u h => ?_
    simp only [R_bind_eq_ok] at h
    obtain ⟨l, _, h⟩ := h
    cases h; exact (hold rfl (by simp)).elim
  | delete i k =>
    refine hon h fun u h => ?_
    simp only [R_bind_eq_ok] at h
    obtain ⟨⟨l, x⟩, _, h⟩ := h
    cases h; exact (hold rfl (by simp)).elim
  | get i k =>
    refine hon h fun u h => ?_
    simp only [R_bind_eq_ok] at h
    obtain ⟨l, _, h⟩ := h
    cases h; exact (hold rfl rfl).elim
  | hash i => refine hon h fun u h => ?_; cases h; exact (hold rfl rfl).elim
  | items i =>
    refine hon h fun u h => ?_
    simp only [R_bind_eq_ok] at h
    obtain ⟨l, _, h⟩ := h
    cases h; exact (hold rfl rfl).elim
  | eq i k =>
    refine hon h fun u h => hon h fun v h => ?_
    cases h; exact (hold rfl rfl).elim
  | subset i ks =>
    refine hon h fun u h => ?_
    simp only [R_bind_eq_ok] at h
    obtain ⟨r, _, h⟩ := h
    cases r with
    | error e => cases h; exact (hold rfl rfl).elim
    | ok tr => cases h; exact hpush rfl
  | subsets i kss =>
    refine hon h fun u h => ?_
    simp only [R_bind_eq_ok] at h
    obtain ⟨⟨r, c⟩, _, h⟩ := h
    cases r with
    | error e => cases h; exact (hold rfl rfl).elim
    | ok tr => cases h; exact hpush rfl

/-- C24, which handles share a cell: a call does not change this for the handles that there are. -/
theorem C24_shares (h : Live .hashed M P kec s) (hc : c.Short) (he : s.exec P kec c = .ok (s', o))
    {i j : Nat} (hi : i < s.hs.length) (hj : j < s.hs.length) : s'.Shares i j ↔ s.Shares i j := by
  obtain ⟨w, p, Z, w', p', Z', h1, h2, hp⟩ := h.pstep hc he
  obtain ⟨f, g1, _⟩ := h1.handle (List.getElem?_eq_getElem hi)
  obtain ⟨f', g1', _⟩ := h1.handle (List.getElem?_eq_getElem hj)
  obtain ⟨l, q, _⟩ := PSys.exec_step hp g1
  obtain ⟨l', q', _⟩ := PSys.exec_step hp g1'
  rw [h1.shares hashed_real, h2.shares hashed_real, g1, g1', q, q']
  simp

/-- C24, which handles share a cell: a clone shares the cell of the original, and of all handles that
share it. -/
theorem C24_clone (h : Live .hashed M P kec s) (he : s.exec P kec (.clone i) = .ok (s', o))
    (hi : i < s.hs.length) {j : Nat} (hj : j < s.hs.length) :
    s'.Shares s.hs.length j ↔ s.Shares i j := by
  have e : s.hs[i]? = some s.hs[i] := List.getElem?_eq_getElem hi
  simp only [Sys.exec, exec_on e] at he
  cases he
  have e2 : ∀ j, j < s.hs.length → (s.hs ++ [s.hs[i]])[j]? = s.hs[j]? :=
    fun j hj => List.getElem?_append_left hj
  simp only [Sys.Shares, e2 j hj, e]
  simp

/-- C24, which handles share a cell: other new tries share their cells with no other handle. -/
theorem C24_alone (h : Live .hashed M P kec s) (hc : c.Short) (hn : ∀ i, c ≠ .clone i)
    (he : s.exec P kec c = .ok (s', o)) {i j : Nat} (hj : s.hs.length ≤ j) (hs : s'.Shares i j) :
    i = j := by
  obtain ⟨w, p, Z, w', p', Z', h1, h2, hp⟩ := h.pstep hc he
  obtain ⟨t, u, g1, g2, e⟩ := (h2.shares hashed_real).1 hs
  have hl : p.hs.length = s.hs.length := by rw [h1.hs, h1.phs, List.length_map, List.length_map]
  have k2 := PSys.exec_fams hn hp (by omega) g2
  by_cases hi : s.hs.length ≤ i
  · have k1 := PSys.exec_fams hn hp (by omega) g1
    omega
  · have hi' : i < p.hs.length := by omega
    obtain ⟨l, q, _⟩ := PSys.exec_step hp (show p.hs[i]? = some (p.hs[i].1, p.hs[i].2) from
      List.getElem?_eq_getElem hi')
    rw [q] at g1
    cases g1
    have : p.hs[i].2 < p.next := by
      have hm := List.getElem_mem hi'
      generalize p.hs[i] = x at hm
      rw [h1.phs, List.mem_map] at hm
      obtain ⟨a, ha, rfl⟩ := hm
      exact (h1.ok a ha).fam
    simp only at e
    omega

/-! ## The history of a cell -/

/-- The states that are reached by calls that do not panic and nothing else. -/
inductive Called (K : Kind) (P : Profile) (kec : Bytes → H256) : Sys K.Ann K.State → Prop
  | start : Called K P kec K.start
  | step {s s' : Sys K.Ann K.State} {c : Cmd} {o : Obs} (h : Called K P kec s) (hs : c.Short)
      (he : s.exec P kec c = .ok (s', o)) : Called K P kec s'

theorem Called.live (h : Called .hashed P kec s) : Live .hashed .any P kec s := by
  induction h with
  | start => exact .start
  | step _ hs he ih => exact .step ih hs (permitted_any _ _) he

/-- Some time before state `s`, the empty cell of handle `i` was filled with the hash `x` of the trie
it had at that time, and no trie that shares the cell has been changed since. -/
inductive Kept (P : Profile) (kec : Bytes → H256) (x : H256) (i : Nat) :
    Sys Kind.hashed.Ann Kind.hashed.State → Prop
  | fill {s s' : Sys Kind.hashed.Ann Kind.hashed.State} {c : Cmd} {o : Obs} {u : Trie Kind.hashed.Ann}
      (h : Called .hashed P kec s) (hu : s.hs[i]? = some u) (hf : s.Fills P kec i c)
      (hx : u.plain.enc kec = .hashed x) (hn : TrieKind.cacheGet u.ann s.state = none)
      (hc : c.Short) (he : s.exec P kec c = .ok (s', o)) : Kept P kec x i s'
  | keep {s s' : Sys Kind.hashed.Ann Kind.hashed.State} {c : Cmd} {o : Obs} (h : Kept P kec x i s)
      (hm : ∀ j, c.mutates = some j → ¬ s.Shares j i) (hc : c.Short)
      (he : s.exec P kec c = .ok (s', o)) : Kept P kec x i s'

theorem Kept.live {x : H256} {i : Nat} (h : Kept P kec x i s) : Live .hashed .any P kec s := by
  induction h with
  | fill h _ _ _ _ hc he => exact .step h.live hc (permitted_any _ _) he
  | keep _ _ hc he ih => exact .step ih hc (permitted_any _ _) he

theorem live_old (h : Live .hashed M P kec s) (hc : c.Short) (he : s.exec P kec c = .ok (s', o))
    {i : Nat} (hi : i < s.hs.length) : i < s'.hs.length := by
  obtain ⟨t', ht', _⟩ := C24_cells h hc he (List.getElem?_eq_getElem hi)
  exact (List.getElem?_eq_some_iff.1 ht').1

theorem Kept.lt {x : H256} {i : Nat} (h : Kept P kec x i s) : i < s.hs.length := by
  induction h with
  | fill h hu _ _ _ hc he => exact live_old h.live hc he (List.getElem?_eq_some_iff.1 hu).1
  | keep h _ hc he ih => exact live_old h.live hc he ih

theorem Sys.Fills.not_clone {i : Nat} (h : s.Fills P kec i c) : ∀ j, c ≠ .clone j := by
  rcases h with rfl | ⟨_, _, _, _, rfl, _⟩ <;> simp

theorem Sys.Fills.not_mutates {i : Nat} (h : s.Fills P kec i c) : c.mutates = none := by
  rcases h with rfl | ⟨_, _, _, _, rfl, _⟩ <;> rfl

theorem Sys.Shares.symm {i j : Nat} (h : s.Shares i j) : s.Shares j i := by
  obtain ⟨t, u, h1, h2, e⟩ := h
  exact ⟨u, t, h2, h1, e.symm⟩

theorem Sys.Shares.trans {i j k : Nat} (h : s.Shares i j) (h' : s.Shares j k) : s.Shares i k := by
  obtain ⟨t, u, h1, h2, e⟩ := h
  obtain ⟨u', v, h3, h4, e'⟩ := h'
  rw [h2] at h3
  cases h3
  exact ⟨t, v, h1, h4, e.trans e'⟩

/-- Every handle after a call was there before, or is a clone, or is another new trie. -/
theorem handle_cases (c : Cmd) (he : s.exec P kec c = .ok (s', o)) (hk : k < s'.hs.length) :
    k < s.hs.length ∨ (s.hs.length ≤ k ∧ ∀ m, c ≠ .clone m) ∨
    ∃ m, c = .clone m ∧ k = s.hs.length ∧ m < s.hs.length ∧ s'.hs[k]? = s.hs[m]? ∧
      s'.state = s.state := by
  by_cases h1 : k < s.hs.length
  · exact .inl h1
  · by_cases h2 : ∀ m, c ≠ .clone m
    · exact .inr (.inl ⟨by omega, h2⟩)
    · simp only [not_forall, not_not] at h2
      obtain ⟨m, rfl⟩ := h2
      refine .inr (.inr ⟨m, rfl, ?_⟩)
      by_cases hm : m < s.hs.length
      · have e : s.hs[m]? = some s.hs[m] := List.getElem?_eq_getElem hm
        simp only [Sys.exec, exec_on e] at he
        cases he
        simp only [List.length_append, List.length_singleton] at hk
        obtain rfl : k = s.hs.length := by omega
        exact ⟨rfl, hm, by simp [e], rfl⟩
      · simp only [Sys.exec, Sys.on, List.getElem?_eq_none (Nat.le_of_not_lt hm)] at he
        cases he
        exact absurd hk h1

/-- C24 for all programs: the cell of a handle contains `x` if and only if it was filled before with
the hash `x` of a trie that shares the cell, and no trie that shares it has been changed since. -/
theorem C24_history (h : Called .hashed P kec s) (hk : s.hs[k]? = some t) (x : H256) :
    TrieKind.cacheGet t.ann s.state = some x ↔ ∃ i, Kept P kec x i s ∧ s.Shares i k := by
  constructor
  · induction h generalizing k t with
    | start => cases hk
    | @step s s' c o h hc he ih =>
      have hcal := h
      replace h := h.live
      intro hx
      rcases handle_cases c he (List.getElem?_eq_some_iff.1 hk).1 with hl | ⟨hl, hn⟩ |
          ⟨m, rfl, rfl, hm, e1, e2⟩
      · obtain ⟨t', ht', g1, g2, g3⟩ := C24_cells h hc he (List.getElem?_eq_getElem hl)
        rw [hk] at ht'
        cases ht'
        by_cases hmu : ∃ j, c.mutates = some j ∧ s.Shares j k
        · obtain ⟨j, hj, hs⟩ := hmu
          rw [g1 j hj hs] at hx
          cases hx
        by_cases hfi : ∃ j, s.Fills P kec j c ∧ s.Shares j k
        · obtain ⟨j, hfl, hs⟩ := hfi
          obtain ⟨u, v, hu, hv, e⟩ := id hs
          obtain ⟨g4, g5⟩ := g2 j u hu hfl hs
          have hv' : s.hs[k] = v := by
            rw [List.getElem?_eq_getElem hl] at hv
            exact Option.some.inj hv
          by_cases ho : TrieKind.cacheGet s.hs[k].ann s.state = none
          · refine ⟨j, .fill hcal hu hfl ((g5 ho x).1 hx) ?_ hc he, ?_⟩
            · rw [e, ← hv']; exact ho
            · exact (C24_shares h hc he (List.getElem?_eq_some_iff.1 hu).1 hl).2 hs
          · rw [g4 ho] at hx
            obtain ⟨i, hi, hs'⟩ := ih (List.getElem?_eq_getElem hl) hx
            refine ⟨i, .keep hi (fun j hj => ?_) hc he, (C24_shares h hc he hi.lt hl).2 hs'⟩
            rw [hfl.not_mutates] at hj
            cases hj
        · rw [g3 fun j hj hs => hj.elim (fun hj => hmu ⟨j, hj, hs⟩) fun hj => hfi ⟨j, hj, hs⟩] at hx
          obtain ⟨i, hi, hs'⟩ := ih (List.getElem?_eq_getElem hl) hx
          exact ⟨i, .keep hi (fun j hj hs => hmu ⟨j, hj, hs.trans hs'⟩) hc he,
            (C24_shares h hc he hi.lt hl).2 hs'⟩
      · rw [C24_new h hc hn he hl hk] at hx
        cases hx
      · rw [e1] at hk
        rw [e2] at hx
        obtain ⟨i, hi, hs'⟩ := ih hk hx
        exact ⟨i, .keep hi (fun j hj => by cases hj) hc he,
          ((C24_clone h he hm hi.lt).2 hs'.symm).symm⟩
  · rintro ⟨i, hi, hs⟩
    clear h
    induction hi generalizing k t with
    | @fill s s' c o u h hu hf hx hn hc he =>
      replace h := h.live
      rcases Nat.lt_or_ge k s.hs.length with hl | hl
      · have hs' := (C24_shares h hc he (List.getElem?_eq_some_iff.1 hu).1 hl).1 hs
        obtain ⟨t', ht', _, g2, _⟩ := C24_cells h hc he (List.getElem?_eq_getElem hl)
        rw [hk] at ht'
        cases ht'
        obtain ⟨u', v, hu', hv, e⟩ := id hs'
        rw [hu] at hu'
        cases hu'
        rw [List.getElem?_eq_getElem hl] at hv
        refine ((g2 i u hu hf hs').2 ?_ x).2 hx
        rw [Option.some.inj hv, ← e]
        exact hn
      · have := C24_alone h hc hf.not_clone he hl hs
        have := (List.getElem?_eq_some_iff.1 hu).1
        omega
    | @keep s s' c o h hm hc he ih =>
      rcases handle_cases c he (List.getElem?_eq_some_iff.1 hk).1 with hl | ⟨hl, hn⟩ |
          ⟨m, rfl, rfl, hm, e1, e2⟩
      · have hs' := (C24_shares h.live hc he h.lt hl).1 hs
        have hx := ih (List.getElem?_eq_getElem hl) hs'
        obtain ⟨t', ht', g1, g2, g3⟩ := C24_cells h.live hc he (List.getElem?_eq_getElem hl)
        rw [hk] at ht'
        cases ht'
        by_cases hfi : ∃ j, s.Fills P kec j c ∧ s.Shares j k
        · obtain ⟨j, hj, hjk⟩ := hfi
          obtain ⟨u, v, hu, hv, e⟩ := id hjk
          rw [(g2 j u hu hj hjk).1 (by rw [hx]; simp), hx]
        · rw [g3 fun j hj hjk => hj.elim (fun hj => hm j hj (hjk.trans hs'.symm))
            fun hj => hfi ⟨j, hj, hjk⟩, hx]
      · have := C24_alone h.live hc hn he hl hs
        have := h.lt
        omega
      · rw [e1] at hk
        rw [e2]
        exact ih hk ((C24_clone h.live he hm h.lt).1 hs.symm).symm

/-- C24 for all programs: `hash()` is wrong if and only if the hash of a trie that shares the cell of
the root, and that is not the hash of this trie, was stored before and no trie that shares the cell
has been changed since. -/
theorem C24_stale (h : Called .hashed P kec s) (hk : s.hs[k]? = some t) :
    (t.rootHash P kec s.state).map (·.1) ≠ (t.bare.rootHash P kec ()).map (·.1) ↔
    ∃ x i, Kept P kec x i s ∧ s.Shares i k ∧ (t.bare.rootHash P kec ()).map (·.1) ≠ .ok x := by
  rw [C24_wrong h.live hk]
  constructor
  · rintro ⟨x, hx, hne⟩
    obtain ⟨i, hi, hs⟩ := (C24_history h hk x).1 hx
    exact ⟨x, i, hi, hs, hne⟩
  · rintro ⟨x, i, hi, hs, hne⟩
    exact ⟨x, (C24_history h hk x).2 ⟨i, hi, hs⟩, hne⟩

end

/-! ## C23 for all programs -/

/-- The result of calls without caches. -/
def bareRes {α S β : Type} (x : R (Sys α S × β)) : R (List (Trie Unit) × β) :=
  x.map fun r => (r.1.bares, r.2)

theorem plain_bare {α : Type} (t : Trie α) : t.bare.plain = t.plain := by
  induction t with
  | empty a => rfl
  | hash a h => rfl
  | branch a cs v ih => simp only [Trie.bare, Trie.plain, ih]
  | ext a k c ih => simp only [Trie.bare, Trie.plain, ih]
  | leaf a k v => rfl

theorem standard_fresh {kec : Bytes → H256} (s : Sys Kind.standard.Ann Kind.standard.State) (c : Cmd) :
    s.FreshFor kec c := by
  have h : ∀ i, s.FreshAt kec i := fun i t _ x hx => by cases hx
  cases c <;> first | exact trivial | exact h _ | exact fun _ => h _

/-- C23 for all programs, one call: if the tries are the same up to caches and the call does not read
a stale cell, then the result is the same and the tries are the same afterwards. -/
theorem C23_call {P : Profile} {kec : Bytes → H256} {M₁ M₂ : Mode}
    {s₁ : Sys Kind.standard.Ann Kind.standard.State} {s₂ : Sys Kind.hashed.Ann Kind.hashed.State}
    (h₁ : Live .standard M₁ P kec s₁) (h₂ : Live .hashed M₂ P kec s₂) (hb : s₁.bares = s₂.bares)
    {c : Cmd} (hc : c.Short) (hf : s₂.FreshFor kec c) :
    bareRes (s₁.exec P kec c) = bareRes (s₂.exec P kec c) := by
  have plains : ∀ {K : Kind} {s : Sys K.Ann K.State}, s.plains = s.bares.map Trie.plain := by
    intro K s
    simp [Sys.plains, Sys.bares, Function.comp_def, plain_bare]
  have e1 := h₁.inv.plain (P := P) hc (standard_fresh s₁ c)
  have e2 := h₂.inv.plain (P := P) hc hf
  rw [plains, hb, ← plains, ← e2] at e1
  obtain ⟨w₁, p₁, Z₁, i1, r1⟩ := h₁.refine
  obtain ⟨w₂, p₂, Z₂, i2, r2⟩ := h₂.refine
  have q1 := r1 c hc
  have q2 := r2 c hc
  have e3 := q1.plain.symm.trans (e1.trans q2.plain)
  revert q1 q2 e3
  rcases p₁.exec P Kind.standard.cells kec c with e | ⟨p₁', o₁⟩ <;>
    rcases p₂.exec P Kind.hashed.cells kec c with e' | ⟨p₂', o₂⟩
  · intro q1 q2 e3
    cases e3
    rw [show s₁.exec P kec c = .error e from q1, show s₂.exec P kec c = .error e from q2]
    rfl
  · intro _ _ h; cases h
  · intro _ _ h; cases h
  · rintro ⟨s₁', w₁', Z₁', k1, _, k2⟩ ⟨s₂', w₂', Z₂', k3, _, k4⟩ e3
    simp only [PSys.plainRes, Except.map, Except.ok.injEq, Prod.mk.injEq] at e3
    obtain ⟨e3, rfl⟩ := e3
    rw [k1, k3]
    simp only [bareRes, Except.map, bares_eq k2 k4 e3]

/-- C23 for all programs: either all results are the same, panics included, and the tries are the same
up to caches, or there is a call that reads a stale cell, and everything is the same up to that
call. -/
theorem C23_first (P : Profile) (kec : Bytes → H256) {cs : List Cmd} (hc : ∀ c ∈ cs, c.Short) :
    bareRes (Kind.standard.run P kec cs) = bareRes (Kind.hashed.run P kec cs) ∨
    ∃ cs₁ c cs₂ s₁ s₂ os, cs = cs₁ ++ c :: cs₂ ∧ Kind.standard.run P kec cs₁ = .ok (s₁, os) ∧
      Kind.hashed.run P kec cs₁ = .ok (s₂, os) ∧ s₁.bares = s₂.bares ∧ ¬ s₂.FreshFor kec c := by
  have key : ∀ (cs : List Cmd) (s₁ : Sys Kind.standard.Ann Kind.standard.State)
      (s₂ : Sys Kind.hashed.Ann Kind.hashed.State), (∀ c ∈ cs, c.Short) →
      Live .standard .any P kec s₁ → Live .hashed .any P kec s₂ → s₁.bares = s₂.bares →
      bareRes (s₁.run P kec cs) = bareRes (s₂.run P kec cs) ∨
      ∃ cs₁ c cs₂ s₁' s₂' os, cs = cs₁ ++ c :: cs₂ ∧ s₁.run P kec cs₁ = .ok (s₁', os) ∧
        s₂.run P kec cs₁ = .ok (s₂', os) ∧ s₁'.bares = s₂'.bares ∧ ¬ s₂'.FreshFor kec c := by
    intro cs
    induction cs with
    | nil =>
      intro s₁ s₂ _ _ _ hb
      left
      simp only [bareRes, Sys.run, Except.map, hb]
    | cons c cs ih =>
      intro s₁ s₂ hc h₁ h₂ hb
      by_cases hf : s₂.FreshFor kec c
      · have := C23_call h₁ h₂ hb (hc c (by simp)) hf
        revert this
        rcases he1 : s₁.exec P kec c with e | ⟨s₁', o₁⟩ <;>
          rcases he2 : s₂.exec P kec c with e' | ⟨s₂', o₂⟩
        · intro h
          cases h
          left
          simp only [Sys.run, he1, he2]
          rfl
        · intro h; cases h
        · intro h; cases h
        · intro h
          simp only [bareRes, Except.map, Except.ok.injEq, Prod.mk.injEq] at h
          obtain ⟨hb', rfl⟩ := h
          rcases ih s₁' s₂' (fun c h => hc c (by simp [h]))
            (.step h₁ (hc c (by simp)) (permitted_any _ _) he1)
            (.step h₂ (hc c (by simp)) (permitted_any _ _) he2) hb' with h | h
          · left
            simp only [Sys.run, he1, he2, R_bind_ok]
            revert h
            rcases s₁'.run P kec cs with e | ⟨s₁'', os₁⟩ <;>
              rcases s₂'.run P kec cs with e' | ⟨s₂'', os₂⟩ <;>
              simp [bareRes, Except.map] <;> intro h <;> simp [h]
          · obtain ⟨cs₁, d, cs₂, t₁, t₂, os, rfl, g1, g2, g3, g4⟩ := h
            right
            refine ⟨c :: cs₁, d, cs₂, t₁, t₂, o₁ :: os, rfl, ?_, ?_, g3, g4⟩
            · simp only [Sys.run, he1, R_bind_ok, g1]; rfl
            · simp only [Sys.run, he2, R_bind_ok, g2]; rfl
      · exact .inr ⟨[], c, cs, s₁, s₂, [], rfl, rfl, rfl, hb, hf⟩
  exact key cs _ _ hc .start .start rfl

/-! ## Examples -/

/-- The cells of the handles after a program with `HashedPartialTrie`, and which of them are shared. -/
def cellsAfter (P : Profile) (cs : List Cmd) : R (List (Option H256) × List (List Bool)) :=
  (Kind.hashed.run P kec0 cs).map fun r =>
    (r.1.hs.map fun t => TrieKind.cacheGet t.ann r.1.state,
      r.1.hs.map fun t => r.1.hs.map fun u => decide (t.ann = u.ann))

/-- In `staleProg`, before the last call: handles 0 and 1 share the cell, which has been filled with
the hash of handle 0; the subset has an empty cell of its own. -/
example : ∀ P : Profile, cellsAfter P (staleProg.take 5) = .ok
    ([some (Vector.replicate 32 45), some (Vector.replicate 32 45), none],
      [[true, true, false], [true, true, false], [false, false, true]]) := by
  intro ⟨P⟩; cases P <;> decide +kernel

/-- Changing handle 0 afterwards empties the cell of both. -/
example : ∀ P : Profile, cellsAfter P (staleProg.take 5 ++ [.delete 0 [1, 2]]) = .ok
    ([none, none, none], [[true, true, false], [true, true, false], [false, false, true]]) := by
  intro ⟨P⟩; cases P <;> decide +kernel

/-- The same with `create_trie_subsets`: the root is a leaf, so that its mark is reset between the
lists and the second list fills the cell. -/
example : ∀ P : Profile, cellsAfter P [.new, .insert 0 [1, 2] (.val (List.replicate 40 7)), .clone 0,
    .subsets 0 [[[1, 2]], []]] = .ok
    ([some (Vector.replicate 32 45), some (Vector.replicate 32 45), none, none],
      [[true, true, false, false], [true, true, false, false], [false, false, true, false],
        [false, false, false, true]]) := by
  intro ⟨P⟩; cases P <;> decide +kernel

/-- A call that fails at the second list, because it needs something below a hash node, has filled the
cell for the first list. -/
example : ∀ P : Profile, cellsAfter P [.fromIter [([1, 2], .val (List.replicate 40 7)),
      ([2], .hash (Vector.replicate 32 9))], .subsets 0 [[], [[2, 2]]]] = .ok
    ([some (Vector.replicate 32 83)], [[true]]) := by
  intro ⟨P⟩; cases P <;> decide +kernel

/-- If the root is a branch, its mark is kept, and the second list does not fill the cell. -/
example : ∀ P : Profile, cellsAfter P [.fromIter [([1, 2], .val (List.replicate 40 7)),
      ([2, 2], .val (List.replicate 40 7))], .subsets 0 [[[1, 2]], []]] = .ok
    ([none, none, none],
      [[true, false, false], [false, true, false], [false, false, true]]) := by
  intro ⟨P⟩; cases P <;> decide +kernel

end EthTrie
