import Verif.Conc.Makes
import Verif.Sys.LiveInv
import Mathlib.Data.List.Nodup

/-!
# The invariant of concurrent programs
-/

namespace EthTrie

open Nibbles Spec Prog

section
variable (kec : Bytes → H256) {α S : Type} [K : TrieKind α S] [L : KindLaws kec α S]

/-- The state of a concurrent program in world `w`: `Z` are the handles and their contents, `mine j` are
the cells that the call of thread `j` has made.  If `E` holds, cells of roots may be filled and every
handle has a cell of its own; otherwise the cells of roots are empty. The tries at the start were `ls₀`. -/
structure CInv (ls₀ : List LNode) (P : Profile) (E : Prop) (w : L.W) (x : Conc α S) (Z : List (Trie α × LNode))
    (mine : Nat → List α) : Prop where
  state : x.sys.state = L.st w
  hs : x.sys.hs = Z.map (·.1)
  ok : ∀ z ∈ Z, RootOk kec w z.1 z.2
  cells : ∀ b, L.slot w b none → K.cacheGet b (L.st w) = none ∨
    (E ∧ ∃ z ∈ Z, z.1.ann = b ∧ ∃ h, K.cacheGet b (L.st w) = some h ∧ z.2.enc kec = .hashed h)
  log : plainRun P kec ls₀ (x.log.map (·.1)) = .ok (Z.map (·.2), x.log.map (·.2))
  run : ∀ {j c p}, x.Runs j c p → (∀ i ∈ c.uses, i < Z.length) ∧
    RG kec (borrowOf E Z c) w p (plainReply P kec (Z.map (·.2)) c) (ReplyRel kec (borrowOf E Z c))
  compat : ∀ {j k c d p q}, j ≠ k → x.Runs j c p → x.Runs k d q → c.Compatible d
  nodup : E → (Z.map fun z => z.1.ann).Nodup
  fresh : E → ∀ {j a}, a ∈ mine j → (∃ o, L.slot w a o) ∧ ∀ z ∈ Z, z.1.ann ≠ a
  apart : E → ∀ {j k a}, j ≠ k → a ∈ mine j → a ∉ mine k
  made : E → ∀ {j c p}, x.Runs j c p → Makes (mine j) p (fun m r => AllMade [] m r.new)

variable {kec} {ls₀ : List LNode} {P : Profile} {E : Prop} {w : L.W} {x : Conc α S} {Z : List (Trie α × LNode)}
  {mine : Nat → List α}

theorem mem_ownOf {c : Cmd} {a : α} {l : LNode} :
    (a, l) ∈ ownOf Z c ↔ ∃ i ∈ c.uses, ∃ z, Z[i]? = some z ∧ z.1.ann = a ∧ z.2 = l := by
  simp only [ownOf, List.mem_filterMap, Option.map_eq_some_iff, Prod.mk.injEq]

theorem Cmd.mutates_uses {c : Cmd} (h : c.mutates ≠ none) : ∃ i, c.mutates = some i ∧ c.uses = [i] := by
  cases c <;> first | exact absurd rfl h | exact ⟨_, rfl, rfl⟩

/-- The threads after a change of thread `j`. -/
theorem runs_set {ts : List (Option (Cmd × Prog α (Reply α)))} {j k : Nat}
    {v : Option (Cmd × Prog α (Reply α))} {d : Cmd} {q : Prog α (Reply α)}
    (h : (ts.set j v)[k]? = some (some (d, q))) :
    (k = j ∧ v = some (d, q)) ∨ (k ≠ j ∧ ts[k]? = some (some (d, q))) := by
  rw [List.getElem?_set] at h
  split at h
  · rename_i e
    split at h
    · exact .inl ⟨e.symm, by simpa using h⟩
    · cases h
  · rename_i e
    exact .inr ⟨fun e' => e e'.symm, h⟩

namespace CInv

/-- Handles with the same cell are the same. -/
theorem same (h : CInv kec ls₀ P E w x Z mine) (hE : E) {i j : Nat} {z z' : Trie α × LNode}
    (hi : Z[i]? = some z) (hj : Z[j]? = some z') (e : z.1.ann = z'.1.ann) : i = j ∧ z = z' := by
  have hn := h.nodup hE
  obtain ⟨hi1, hi2⟩ := List.getElem?_eq_some_iff.1 hi
  obtain ⟨hj1, hj2⟩ := List.getElem?_eq_some_iff.1 hj
  have : i = j := by
    refine (hn.getElem_inj_iff (hi := by simpa using hi1) (hj := by simpa using hj1)).1 ?_
    simp only [List.getElem_map, hi2, hj2, e]
  subst this
  exact ⟨rfl, hi2.symm.trans hj2⟩

/-- The cells of handles. -/
theorem cellOk (h : CInv kec ls₀ P E w x Z mine) {z : Trie α × LNode} (hz : z ∈ Z) :
    CellOk kec E z.2 (K.cacheGet z.1.ann (L.st w)) := by
  rcases h.cells _ (h.ok z hz).slot with h1 | ⟨hE, z', hz', e, h', h1, h2⟩
  · exact .inl h1
  · obtain ⟨i, hi⟩ := List.getElem?_of_mem hz
    obtain ⟨j, hj⟩ := List.getElem?_of_mem hz'
    obtain ⟨_, rfl⟩ := h.same hE hi hj e.symm
    exact .inr ⟨hE, h', h1, h2⟩

theorem rely_refl (h : CInv kec ls₀ P E w x Z mine) (c : Cmd) : Rely kec (borrowOf E Z c) w w := by
  refine ⟨ole_refl w, ?_, fun _ _ _ h => h⟩
  rintro ⟨a, l⟩ hx
  obtain ⟨i, _, z, hz, rfl, rfl⟩ := mem_ownOf.1 hx
  exact h.cellOk (List.mem_of_getElem? hz)

/-- The cells after a step of thread `j`. -/
theorem cells_step (h : CInv kec ls₀ P E w x Z mine) {c : Cmd} {w' : L.W}
    (hg : Guar kec (borrowOf E Z c) w w') (b : α) (hb : L.slot w' b none) :
    K.cacheGet b (L.st w') = none ∨
      (E ∧ ∃ z ∈ Z, z.1.ann = b ∧ ∃ h, K.cacheGet b (L.st w') = some h ∧ z.2.enc kec = .hashed h) := by
  rcases hg.cell b hb with h1 | ⟨h1, h2⟩ | ⟨_, hE, l, hl, h', h1, h2⟩
  · exact .inl h1
  · rw [h2]
    exact h.cells b h1
  · obtain ⟨i, _, z, hz, rfl, rfl⟩ := mem_ownOf.1 hl
    exact .inr ⟨hE, z, List.mem_of_getElem? hz, rfl, h', h1, h2⟩

/-- What the other threads rely on. -/
theorem rely_step (h : CInv kec ls₀ P E w x Z mine) {j k : Nat} {c d : Cmd}
    {p q : Prog α (Reply α)} (hj : x.Runs j c p) (hk : x.Runs k d q) (hjk : j ≠ k) {w' : L.W}
    (hg : Guar kec (borrowOf E Z c) w w') : Rely kec (borrowOf E Z d) w w' := by
  refine ⟨hg.ole, ?_, ?_⟩
  · rintro ⟨a, l⟩ hx
    obtain ⟨i, _, z, hz, rfl, rfl⟩ := mem_ownOf.1 hx
    have hmem := List.mem_of_getElem? hz
    rcases h.cells_step hg _ (L.slot_mono hg.ole (h.ok z hmem).slot) with
      h1 | ⟨hE, z', hz', e, h', h1, h2⟩
    · exact .inl h1
    · obtain ⟨i', hi'⟩ := List.getElem?_of_mem hz'
      obtain ⟨_, rfl⟩ := h.same hE hz hi' e.symm
      exact .inr ⟨hE, h', h1, h2⟩
  · rintro hmu ⟨a, l⟩ hx hn
    obtain ⟨i, hi, z, hz, rfl, rfl⟩ := mem_ownOf.1 hx
    have hmem := List.mem_of_getElem? hz
    rcases hg.cell _ (L.slot_mono hg.ole (h.ok z hmem).slot) with
      h1 | ⟨h1, h2⟩ | ⟨_, hE, l, hl, h', h1, h2⟩
    · exact h1
    · exact h2.trans hn
    · obtain ⟨i', hi', z', hz', e, rfl⟩ := mem_ownOf.1 hl
      obtain ⟨rfl, rfl⟩ := h.same hE hz hz' e.symm
      obtain ⟨m, hm, hu⟩ := Cmd.mutates_uses hmu
      rw [hu, List.mem_singleton] at hi
      subst hi
      exact absurd hi' ((h.compat hjk hj hk).2 _ hm)

/-- A step of thread `j` inside its call. -/
theorem inner (h : CInv kec ls₀ P E w x Z mine) {j : Nat} {c : Cmd} {p p' : Prog α (Reply α)}
    (hj : x.Runs j c p) {w' : L.W} (hg : Guar kec (borrowOf E Z c) w w')
    (hrg : RG kec (borrowOf E Z c) w' p' (plainReply P kec (Z.map (·.2)) c)
      (ReplyRel kec (borrowOf E Z c))) {m : List α} (hsub : E → ∀ a ∈ m, a ∈ mine j ∨
        ((∃ o, L.slot w' a o) ∧ ∀ o, ¬ L.slot w a o))
    (hm : E → Makes m p' (fun m r => AllMade [] m r.new)) :
    CInv kec ls₀ P E w' ⟨⟨L.st w', x.sys.hs⟩, x.threads.set j (some (c, p')), x.log⟩ Z
      (upd mine j m) where
  state := rfl
  hs := h.hs
  ok := fun z hz => (h.ok z hz).mono hg.ole
  cells := h.cells_step hg
  log := h.log
  run := by
    intro k d q hk
    rcases runs_set hk with ⟨rfl, e⟩ | ⟨hne, hk⟩
    · cases e
      exact ⟨(h.run hj).1, hrg⟩
    · obtain ⟨h1, h2⟩ := h.run hk
      exact ⟨h1, h2.later (h.rely_step hj hk (Ne.symm hne) hg) fun _ _ _ _ hr hq => hq.later hr⟩
  compat := by
    intro k k' d d' q q' hne hk0 hk0'
    rcases runs_set hk0 with ⟨rfl, e⟩ | ⟨h1, hk⟩ <;>
      rcases runs_set hk0' with ⟨rfl, e'⟩ | ⟨h1', hk'⟩
    · exact absurd rfl hne
    · cases e; exact h.compat hne hj hk'
    · cases e'; exact h.compat hne hk hj
    · exact h.compat hne hk hk'
  nodup := h.nodup
  fresh := by
    intro hE k a ha
    have old : a ∈ mine k → (∃ o, L.slot w' a o) ∧ ∀ z ∈ Z, z.1.ann ≠ a := by
      intro ha
      obtain ⟨⟨o, ho⟩, h2⟩ := h.fresh hE ha
      exact ⟨⟨o, L.slot_mono hg.ole ho⟩, h2⟩
    by_cases e : k = j
    · subst e
      rw [upd_same] at ha
      rcases hsub hE a ha with h1 | ⟨h1, h2⟩
      · exact old h1
      · refine ⟨h1, fun z hz e => h2 none ?_⟩
        rw [← e]
        exact (h.ok z hz).slot
    · rw [upd_other _ _ e] at ha
      exact old ha
  apart := by
    intro hE k k' a hne ha ha'
    by_cases e : k = j
    · subst e
      rw [upd_same] at ha
      rw [upd_other _ _ (Ne.symm hne)] at ha'
      rcases hsub hE a ha with h1 | ⟨h1, h2⟩
      · exact h.apart hE hne h1 ha'
      · obtain ⟨⟨o, ho⟩, _⟩ := h.fresh hE ha'
        exact h2 o ho
    · rw [upd_other _ _ e] at ha
      by_cases e' : k' = j
      · subst e'
        rw [upd_same] at ha'
        rcases hsub hE a ha' with h1 | ⟨h1, h2⟩
        · exact h.apart hE hne ha h1
        · obtain ⟨⟨o, ho⟩, _⟩ := h.fresh hE ha
          exact h2 o ho
      · rw [upd_other _ _ e'] at ha'
        exact h.apart hE hne ha ha'
  made := by
    intro hE k d q hk
    rcases runs_set hk with ⟨rfl, e⟩ | ⟨hne, hk⟩
    · cases e
      rw [upd_same]
      exact hm hE
    · rw [upd_other _ _ hne]
      exact h.made hE hk

/-- A thread calls a function. -/
theorem call (h : CInv kec ls₀ P E w x Z mine) {j : Nat} {c : Cmd} (hj : x.threads[j]? = some none)
    (hs : c.Short) (hf : c.Fit E L.real) (hu : ∀ i ∈ c.uses, i < x.sys.hs.length)
    (hb : ∀ k d p, x.Runs k d p → d.Compatible c) :
    CInv kec ls₀ P E w ⟨x.sys, x.threads.set j (some (c, c.prog P kec x.sys.hs)), x.log⟩ Z
      (upd mine j []) where
  state := h.state
  hs := h.hs
  ok := h.ok
  cells := h.cells
  log := h.log
  run := by
    intro k d q hk
    rcases runs_set hk with ⟨rfl, e⟩ | ⟨hne, hk⟩
    · cases e
      rw [h.hs] at hu ⊢
      exact ⟨fun i hi => by simpa using hu i hi, rg_prog h.ok hs hf⟩
    · exact h.run hk
  compat := by
    intro k k' d d' q q' hne hk0 hk0'
    rcases runs_set hk0 with ⟨rfl, e⟩ | ⟨h1, hk⟩ <;>
      rcases runs_set hk0' with ⟨rfl, e'⟩ | ⟨h1', hk'⟩
    · exact absurd rfl hne
    · cases e; exact ⟨(hb _ _ _ hk').2, (hb _ _ _ hk').1⟩
    · cases e'; exact hb _ _ _ hk
    · exact h.compat hne hk hk'
  nodup := h.nodup
  fresh := by
    intro hE k a ha
    by_cases e : k = j
    · subst e
      rw [upd_same] at ha
      cases ha
    · rw [upd_other _ _ e] at ha
      exact h.fresh hE ha
  apart := by
    intro hE k k' a hne ha ha'
    by_cases e : k = j
    · subst e
      rw [upd_same] at ha
      cases ha
    · by_cases e' : k' = j
      · subst e'
        rw [upd_same] at ha'
        cases ha'
      · rw [upd_other _ _ e] at ha
        rw [upd_other _ _ e'] at ha'
        exact h.apart hE hne ha ha'
  made := by
    intro hE k d q hk
    rcases runs_set hk with ⟨rfl, e⟩ | ⟨hne, hk⟩
    · cases e
      rw [upd_same]
      refine makes_prog ?_
      rintro i rfl
      exact hf hE
    · rw [upd_other _ _ hne]
      exact h.made hE hk

end CInv

theorem plainRun_snoc {P : Profile} {ls ls' : List LNode} {cs : List Cmd} {os : List Obs} (c : Cmd)
    (h : plainRun P kec ls cs = .ok (ls', os)) :
    plainRun P kec ls (cs ++ [c]) = (plainExec P kec ls' c).map fun r => (r.1, os ++ [r.2]) := by
  induction cs generalizing ls os with
  | nil =>
    cases h
    simp only [List.nil_append, plainRun]
    rcases plainExec P kec _ c with _ | ⟨_, _⟩ <;> rfl
  | cons d cs ih =>
    simp only [plainRun, R_bind_eq_ok] at h
    obtain ⟨⟨l1, o1⟩, h1, ⟨l2, o2⟩, h2, h3⟩ := h
    cases h3
    simp only [List.cons_append, plainRun, h1, R_bind_ok, ih h2]
    generalize plainExec P kec _ c = z
    rcases z with _ | ⟨_, _⟩ <;> rfl

namespace CInv

/-- What a call that has ended returns. -/
theorem reply (h : CInv kec ls₀ P E w x Z mine) {j : Nat} {c : Cmd} {r : Reply α}
    (hj : x.Runs j c (.ret r)) : ∃ y, plainReply P kec (Z.map (·.2)) c = .ok y ∧
      ReplyRel kec (borrowOf E Z c) w r y := (h.run hj).2

/-- A call ends. -/
theorem finish (h : CInv kec ls₀ P E w x Z mine) {j : Nat} {c : Cmd} {r : Reply α}
    (hj : x.Runs j c (.ret r)) :
    ∃ Z', CInv kec ls₀ P E w ⟨⟨x.sys.state, r.apply x.sys.hs⟩, x.threads.set j none,
      x.log ++ [(c, r.obs)]⟩ Z' (upd mine j []) := by
  obtain ⟨y, hy, hr⟩ := h.reply hj
  -- the changed handle
  obtain ⟨Z1, hZ1, hP1, hann, hmem1, hget1⟩ : ∃ Z1 : List (Trie α × LNode),
      Z1.map (·.1) = (match r.upd with
        | none => Z.map (·.1)
        | some (i, t) => (Z.map (·.1)).set i t) ∧
      Z1.map (·.2) = (match y.upd with
        | none => Z.map (·.2)
        | some (i, t) => (Z.map (·.2)).set i t) ∧
      Z1.map (fun z => z.1.ann) = Z.map (fun z => z.1.ann) ∧
      (∀ z ∈ Z1, RootOk kec w z.1 z.2) ∧
      ((∀ i, c.mutates ≠ some i → Z1[i]? = Z[i]?) ∧
        ∀ z ∈ Z, z ∈ Z1 ∨ K.cacheGet z.1.ann (L.st w) = none) := by
    have hu := hr.upd
    have hmu := plainReply_upd (i := (y.upd.map (·.1)).getD 0) (l := (y.upd.map (·.2)).getD .empty) hy
    revert hu hmu
    rcases r.upd with _ | ⟨i, t⟩ <;> rcases y.upd with _ | ⟨i', l⟩
    · exact fun _ _ => ⟨Z, rfl, rfl, rfl, h.ok, fun _ _ => rfl, fun z hz => .inl hz⟩
    · exact False.elim
    · exact False.elim
    · rintro ⟨rfl, g1, g2, ⟨l0, g3⟩, g4⟩ hmu
      have hmu : c.mutates = some i := hmu rfl
      obtain ⟨i', hi', hus⟩ := Cmd.mutates_uses g2
      rw [hmu] at hi'
      cases hi'
      obtain ⟨k, hk, z, hz, hza, rfl⟩ := mem_ownOf.1
        (show (t.ann, l0) ∈ ownOf Z c from by
          rw [show ownOf Z c = [(t.ann, l0)] from g3]; simp)
      rw [hus, List.mem_singleton] at hk
      subst hk
      refine ⟨Z.set k (t, l), by simp [List.map_set], by simp [List.map_set], ?_, ?_, ?_, ?_⟩
      · rw [List.map_set]
        apply List.ext_getElem?
        intro n
        rw [List.getElem?_set]
        split
        · rename_i e
          subst e
          split
          · rw [List.getElem?_map, hz]
            simp [hza]
          · rename_i hlt
            rw [List.getElem?_eq_none (by omega)]
        · rfl
      · intro a ha
        rcases List.mem_or_eq_of_mem_set ha with ha | rfl
        · exact h.ok a ha
        · exact g1
      · intro n hn
        rw [List.getElem?_set_ne]
        rintro rfl
        exact hn hmu
      · intro a ha
        obtain ⟨n, hn⟩ := List.getElem?_of_mem ha
        by_cases e : k = n
        · subst e
          rw [hz] at hn
          cases hn
          exact .inr (by rw [hza]; exact g4)
        · left
          apply List.mem_of_getElem? (i := n)
          rw [List.getElem?_set_ne e]
          exact hn
  -- the new handles
  obtain ⟨N, hN1, hN2, hNok⟩ : ∃ N : List (Trie α × LNode), N.map (·.1) = r.new ∧
      N.map (·.2) = y.new ∧ ∀ z ∈ N, RootOk kec w z.1 z.2 := by
    have := hr.new
    revert this
    generalize r.new = ts
    generalize y.new = ls
    intro this
    induction this with
    | nil => exact ⟨[], rfl, rfl, by simp⟩
    | cons h1 _ ih =>
      obtain ⟨N, rfl, rfl, h2⟩ := ih
      exact ⟨(_, _) :: N, rfl, rfl, by simpa using ⟨h1, fun a b hab => h2 (a, b) hab⟩⟩
  have hnew : E → AllMade [] (mine j) r.new := fun hE => h.made hE hj
  have hN3 : N.map (fun z => z.1.ann) = r.new.map Trie.ann := by
    rw [← hN1, List.map_map]; rfl
  have hannmem : ∀ z ∈ N, E → z.1.ann ∈ mine j := by
    intro z hz hE
    refine ((hnew hE).2 z.1 ?_).1
    rw [← hN1]
    exact List.mem_map_of_mem hz
  have hlen : Z1.length = Z.length := by
    have := congrArg List.length hann
    simpa using this
  have hget : ∀ {k d q}, k ≠ j → x.Runs k d q → ∀ i ∈ d.uses, (Z1 ++ N)[i]? = Z[i]? := by
    intro k d q hne hk i hi
    rw [List.getElem?_append_left (by rw [hlen]; exact (h.run hk).1 i hi)]
    refine hget1.1 i fun e => ?_
    exact (h.compat hne hk hj).2 i e hi
  refine ⟨Z1 ++ N, h.state, ?_, ?_, ?_, ?_, ?_, ?_, ?_, ?_, ?_, ?_⟩
  · show r.apply x.sys.hs = _
    rw [Reply.apply, h.hs, List.map_append, hN1, hZ1]
    rfl
  · intro z hz
    rcases List.mem_append.1 hz with hz | hz
    · exact hmem1 z hz
    · exact hNok z hz
  · intro b hb
    rcases h.cells b hb with h1 | ⟨hE, z, hz, rfl, h', h1, h2⟩
    · exact .inl h1
    · rcases hget1.2 z hz with g | g
      · exact .inr ⟨hE, z, List.mem_append_left _ g, rfl, h', h1, h2⟩
      · exact .inl g
  · rw [List.map_append, List.map_cons, List.map_nil, plainRun_snoc c h.log, plainExec_eq, hy]
    simp only [Except.map, List.map_append, List.map_cons, List.map_nil, hr.obs, hP1, hN2,
      PReply.apply]
    rfl
  · intro k d q hk
    rcases runs_set hk with ⟨_, e⟩ | ⟨hne, hk⟩
    · cases e
    · obtain ⟨h1, h2⟩ := h.run hk
      have hg := hget hne hk
      have hown : borrowOf E (Z1 ++ N) d = borrowOf E Z d := by
        unfold borrowOf ownOf
        congr 1
        apply List.filterMap_congr
        intro i hi
        rw [hg i hi]
      refine ⟨fun i hi => ?_, ?_⟩
      · rw [List.length_append, hlen]
        exact Nat.lt_add_right _ (h1 i hi)
      · rw [hown, plainReply_congr (ls := Z.map (·.2)) fun i hi => by
          rw [List.getElem?_map, List.getElem?_map, hg i hi]]
        exact h2
  · intro k k' d d' q q' hne hk hk'
    rcases runs_set hk with ⟨rfl, e⟩ | ⟨h1, hk⟩
    · cases e
    · rcases runs_set hk' with ⟨rfl, e'⟩ | ⟨h1', hk'⟩
      · cases e'
      · exact h.compat hne hk hk'
  · intro hE
    rw [List.map_append, hann, hN3]
    refine List.nodup_append.2 ⟨h.nodup hE, (hnew hE).1, ?_⟩
    rintro a ha b hb rfl
    obtain ⟨t, ht, rfl⟩ := List.mem_map.1 hb
    obtain ⟨z, hz, hza⟩ := List.mem_map.1 ha
    exact (h.fresh hE ((hnew hE).2 t ht).1).2 z hz hza
  · intro hE k a ha
    by_cases e : k = j
    · subst e
      rw [upd_same] at ha
      cases ha
    · rw [upd_other _ _ e] at ha
      obtain ⟨h1, h2⟩ := h.fresh hE ha
      refine ⟨h1, fun z hz he => ?_⟩
      rcases List.mem_append.1 hz with hz | hz
      · have : z.1.ann ∈ Z1.map (fun z => z.1.ann) := List.mem_map_of_mem hz
        rw [hann] at this
        obtain ⟨z', hz', hza⟩ := List.mem_map.1 this
        exact h2 z' hz' (hza.trans he)
      · have := hannmem z hz hE
        rw [he] at this
        exact h.apart hE e ha this
  · intro hE k k' a hne ha ha'
    by_cases e : k = j
    · subst e
      rw [upd_same] at ha
      cases ha
    · by_cases e' : k' = j
      · subst e'
        rw [upd_same] at ha'
        cases ha'
      · rw [upd_other _ _ e] at ha
        rw [upd_other _ _ e'] at ha'
        exact h.apart hE hne ha ha'
  · intro hE k d q hk
    rcases runs_set hk with ⟨_, e⟩ | ⟨hne, hk⟩
    · cases e
    · rw [upd_other _ _ hne]
      exact h.made hE hk

/-- A call is given up. -/
theorem drop (h : CInv kec ls₀ P E w x Z mine) (j : Nat) :
    CInv kec ls₀ P E w ⟨x.sys, x.threads.set j none, x.log⟩ Z mine where
  state := h.state
  hs := h.hs
  ok := h.ok
  cells := h.cells
  log := h.log
  run := by
    intro k d q hk
    rcases runs_set hk with ⟨_, e⟩ | ⟨_, hk⟩
    · cases e
    · exact h.run hk
  compat := by
    intro k k' d d' q q' hne hk hk'
    rcases runs_set hk with ⟨_, e⟩ | ⟨_, hk⟩
    · cases e
    · rcases runs_set hk' with ⟨_, e⟩ | ⟨_, hk'⟩
      · cases e
      · exact h.compat hne hk hk'
  nodup := h.nodup
  fresh := h.fresh
  apart := h.apart
  made := by
    intro hE k d q hk
    rcases runs_set hk with ⟨_, e⟩ | ⟨_, hk⟩
    · cases e
    · exact h.made hE hk

/-- A step inside a call. -/
theorem step (hER : E → L.real) (h : CInv kec ls₀ P E w x Z mine) {y : Conc α S} (hs : Conc.Inner x y) :
    ∃ w' Z' mine', CInv kec ls₀ P E w' y Z' mine' := by
  cases hs with
  | alloc j c k hj =>
    obtain ⟨w', h1, h2, h3⟩ := (h.run hj).2 w (h.rely_refl c)
    have := h.inner hj h1 h3 (m := (K.alloc (L.st w)).1 :: mine j) (by
      intro hE a ha
      rcases List.mem_cons.1 ha with rfl | ha
      · exact .inr ⟨L.slot_alloc _ h2, fun o ho => L.fresh (hER hE) ho rfl⟩
      · exact .inl ha) (by
      intro hE
      refine h.made hE hj _ fun hmem => ?_
      obtain ⟨⟨o, ho⟩, _⟩ := h.fresh hE hmem
      exact L.fresh (hER hE) ho rfl)
    rw [h2] at this
    rw [h.state]
    exact ⟨w', Z, _, this⟩
  | read j c a k hj =>
    have hrg := (h.run hj).2 w (h.rely_refl c)
    have := h.inner hj (.of_le (L.le_refl w)) hrg (m := mine j) (fun _ a ha => .inl ha)
      (fun hE => h.made hE hj _)
    rw [← h.state] at this
    exact ⟨w, Z, _, this⟩
  | write j c a v k hj =>
    obtain ⟨w', h1, h2, h3⟩ := (h.run hj).2 w (h.rely_refl c)
    have := h.inner hj h1 h3 (m := mine j) (fun _ a ha => .inl ha)
      (fun hE => (h.made hE hj : Makes _ (.write a v k) _))
    rw [h2] at this
    rw [h.state]
    exact ⟨w', Z, _, this⟩
  | finish j c r hj =>
    obtain ⟨Z', h'⟩ := h.finish hj
    exact ⟨w, Z', _, h'⟩
  | unwind j c e hj hm => exact ⟨w, Z, _, h.drop j⟩

end CInv
end
end EthTrie
