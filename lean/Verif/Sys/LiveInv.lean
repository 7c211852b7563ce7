import Verif.Sys.Mode

/-!
# The invariant of program states
-/

namespace EthTrie

open Spec KMap LNode Nibbles

/-- All handles without cache cells. -/
def Sys.plains {α S : Type} (s : Sys α S) : List LNode := s.hs.map Trie.plain

/-- Read the result of a call. -/
def plainRes {α S : Type} (x : R (Sys α S × Obs)) : R (List LNode × Obs) :=
  x.map fun y => (y.1.plains, y.2)

theorem Inv.plains {kec : Bytes → H256} {α S : Type} [K : TrieKind α S] [L : KindLaws kec α S]
    {w : L.W} {s : Sys α S} {p : PSys} {Z : List (Trie α × LNode × Nat)} (h : Inv kec w s p Z) :
    s.plains = p.hs.map (·.1) := by
  rw [Sys.plains, h.hs, h.phs, List.map_map, List.map_map]
  apply List.map_congr_left
  intro a ha
  simp only [Function.comp, (h.ok a ha).rep.plain]

/-- The cache cell of the root of a handle is empty or right. -/
def Sys.FreshAt {α S : Type} [K : TrieKind α S] (kec : Bytes → H256) (s : Sys α S) (i : Nat) : Prop :=
  ∀ t, s.hs[i]? = some t → ∀ x, K.cacheGet t.ann s.state = some x → t.plain.enc kec = .hashed x

/-- The calls that read the cache cell of a root read a right one. -/
def Sys.FreshFor {α S : Type} [K : TrieKind α S] (kec : Bytes → H256) (s : Sys α S) : Cmd → Prop
  | .hash i => s.FreshAt kec i
  | .subset i ks => ks = [] → s.FreshAt kec i
  | .subsets i kss => [] ∈ kss → s.FreshAt kec i
  | _ => True

theorem Inv.safeAt {kec : Bytes → H256} {α S : Type} [K : TrieKind α S] [L : KindLaws kec α S]
    {w : L.W} {s : Sys α S} {p : PSys} {Z : List (Trie α × LNode × Nat)} (h : Inv kec w s p Z)
    (i : Nat) : s.FreshAt kec i ↔ p.SafeAt kec i := by
  unfold Sys.FreshAt PSys.SafeAt
  rw [h.hs, h.phs, List.getElem?_map, List.getElem?_map]
  cases hi : Z[i]? with
  | none => exact ⟨(fun _ t ht => by cases ht), (fun _ t ht => by cases ht)⟩
  | some a =>
    have hok := h.ok a (List.mem_of_getElem? hi)
    have hpl := hok.rep.plain
    have hce := hok.cell
    rw [← h.state] at hce
    refine ⟨fun g t ht x hx => ?_, fun g t ht x hx => ?_⟩
    · cases ht
      have := g a.1 rfl x (hce.trans hx)
      rw [hpl] at this
      exact this
    · cases ht
      rw [hpl]
      exact g a.2 rfl x (hce.symm.trans hx)

theorem Inv.safe {kec : Bytes → H256} {α S : Type} [K : TrieKind α S] [L : KindLaws kec α S]
    {w : L.W} {s : Sys α S} {p : PSys} {Z : List (Trie α × LNode × Nat)} (h : Inv kec w s p Z)
    (c : Cmd) : s.FreshFor kec c ↔ p.Safe kec c := by
  cases c <;> first | exact Iff.rfl | exact h.safeAt _ | exact imp_congr_right fun _ => h.safeAt _

/-- What is known about the cache cells of roots. -/
def CellInv (K : Kind) (M : Mode) (kec : Bytes → H256) (p : PSys) : Prop :=
  K = .hashed → match M with
    | .noClone => p.Own kec
    | .noEmptySubset => ∀ f, p.filled f = none
    | .any => True

/-- The invariant of live states. -/
structure LiveInv (K : Kind) (M : Mode) (kec : Bytes → H256) (s : Sys K.Ann K.State) : Prop where
  ex : ∃ w p Z, Inv (L := Kind.laws kec K) kec w s p Z ∧ CellInv K M kec p

theorem LiveInv.any {K : Kind} {M : Mode} {kec : Bytes → H256} {s : Sys K.Ann K.State}
    (h : LiveInv K M kec s) : LiveInv K .any kec s := by
  obtain ⟨w, p, Z, h1, _⟩ := h.ex
  exact ⟨w, p, Z, h1, fun _ => trivial⟩

variable {K : Kind} {M : Mode} {P : Profile} {kec : Bytes → H256} {s : Sys K.Ann K.State}

theorem LiveInv.step (h : LiveInv K M kec s) {c : Cmd} (hs : c.Short) (hp : permitted K M c)
    {s' : Sys K.Ann K.State} {o : Obs} (he : s.exec P kec c = .ok (s', o)) : LiveInv K M kec s' := by
  obtain ⟨w, p, Z, h1, h3⟩ := h.ex
  have := exec_refine (L := Kind.laws kec K) (P := P) (K.cells_real kec) h1 hs
  revert this
  cases hp' : p.exec P K.cells kec c with
  | error e =>
    intro this
    rw [show s.exec P kec c = .error e from this] at he
    cases he
  | ok r =>
    obtain ⟨p', o⟩ := r
    rintro ⟨s', w', Z', k1, k2, k3⟩
    rw [k1] at he
    cases he
    refine ⟨w', p', Z', k3, fun hK => ?_⟩
    subst hK
    have h3 := h3 rfl
    cases M with
    | noClone =>
      refine PSys.exec_own (fun i e => ?_) hp' h3
      subst e; exact hp
    | noEmptySubset =>
      refine PSys.exec_noFill ?_ hp' h3
      cases c <;> first | trivial | exact hp
    | any => trivial

/-- Calls that read right cells. -/
theorem LiveInv.plain (h : LiveInv K M kec s) {c : Cmd} (hs : c.Short) (hf : s.FreshFor kec c) :
    plainRes (s.exec P kec c) = plainExec P kec s.plains c := by
  obtain ⟨w, p, Z, h1, _⟩ := h.ex
  have := exec_refine (L := Kind.laws kec K) (P := P) (K.cells_real kec) h1 hs
  rw [h1.plains, ← PSys.exec_plain P K.cells ((h1.safe c).1 hf)]
  revert this
  cases hp' : p.exec P K.cells kec c with
  | error e =>
    intro this
    rw [show s.exec P kec c = .error e from this]
    rfl
  | ok r =>
    obtain ⟨p', o⟩ := r
    rintro ⟨s', w', Z', k1, k2, k3⟩
    rw [k1]
    simp only [plainRes, PSys.plainRes, Except.map, k3.plains]

/-- Without cells everything is right. -/
theorem fresh_standard {s : Sys Kind.standard.Ann Kind.standard.State} (i : Nat) :
    s.FreshAt kec i := fun _ _ _ hx => by cases hx

/-- In safe modes everything is right. -/
theorem LiveInv.freshAt [hM : M.Safe] (h : LiveInv K M kec s) (i : Nat) : s.FreshAt kec i := by
  obtain ⟨w, p, Z, h1, h3⟩ := h.ex
  cases K with
  | standard => exact fresh_standard i
  | hashed =>
    rw [h1.safeAt]
    have h3 := h3 rfl
    intro t ht
    cases M with
    | noClone => exact h3.right t (List.mem_of_getElem? ht)
    | noEmptySubset => intro x hx; rw [h3] at hx; cases hx
    | any => exact absurd rfl hM.ne

theorem freshFor_of (h : ∀ i, s.FreshAt kec i) (c : Cmd) : s.FreshFor kec c := by
  cases c <;> first | trivial | exact h _ | exact fun _ => h _

theorem LiveInv.exec [M.Safe] (h : LiveInv K M kec s) {c : Cmd} (hs : c.Short)
    (hp : permitted K M c) : plainRes (s.exec P kec c) = plainExec P kec s.plains c ∧
    ∀ s' o, s.exec P kec c = .ok (s', o) → LiveInv K M kec s' :=
  ⟨h.plain hs (freshFor_of h.freshAt c), fun _ _ he => h.step hs hp he⟩

theorem LiveInv.start : LiveInv K M kec K.start :=
  ⟨K.initW kec, PSys.start, [],
    ⟨(Kind.st_initW kec K).symm, rfl, rfl, by simp, by simp, by simp, fun _ _ => rfl⟩, fun _ => by
      cases M with
      | noClone => exact PSys.start_own
      | noEmptySubset => exact fun _ => rfl
      | any => trivial⟩

end EthTrie
