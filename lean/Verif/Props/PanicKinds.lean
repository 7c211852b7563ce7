import Verif.Props.Cases
import Verif.Props.Panics
import Verif.Trie.DeleteExact

/-!
# C82: which panics can occur

For every call, the panics that it can end with, in any state that programs reach; and a program for each of
them.
-/

namespace EthTrie

open Nibbles Spec

/-- The panics that a call can end with. -/
def Cmd.panics (P : Profile) : Cmd → List Panic
  | .insert _ _ (.val _) => [.hashInsert]
  | .insert _ _ (.hash _) => [.hashInsert, .hashOnExisting, .expectFailed]
  | .fromIter xs =>
    if xs.all (fun x => x.2.isVal) then [] else [.hashInsert, .hashOnExisting, .expectFailed]
  | .extend _ xs =>
    if xs.all (fun x => x.2.isVal) then [.hashInsert] else [.hashInsert, .hashOnExisting, .expectFailed]
  | .delete _ _ => [.hashDelete, .expectFailed, .assertFailed]
  | .get _ _ | .subset _ _ | .subsets _ _ => if P.overflowChecks then [.overflow] else []
  | .items _ => [.assertFailed]
  | .new | .clone _ | .hash _ | .eq _ _ => []

theorem R_bind_eq_error {α β : Type} {x : R α} {f : α → R β} {e : Panic} :
    (x >>= f) = .error e ↔ x = .error e ∨ ∃ a, x = .ok a ∧ f a = .error e := by
  cases x with
  | error e' => simp
  | ok a => simp

namespace LNode

/-- No hash nodes. -/
def NoHashes : LNode → Prop
  | .hash _ => False
  | .branch cs _ => ∀ i, NoHashes (cs i)
  | .ext _ c => NoHashes c
  | _ => True

theorem insert_panics {v : ValOrHash} {e : Panic} : ∀ {l : LNode} {k : Key}, l.insert k v = .error e →
    (e = .hashInsert ∧ ¬ l.NoHashes) ∨ (v.isVal = false ∧ (e = .hashOnExisting ∨ e = .expectFailed)) := by
  intro l
  induction l with
  | empty => intro k h; cases h
  | hash x => intro k h; cases h; exact .inl ⟨rfl, fun h => h⟩
  | branch cs w ih =>
    intro k h
    cases k with
    | nil =>
      cases v with
      | val x => cases h
      | hash x => cases h; exact .inr ⟨rfl, .inl rfl⟩
    | cons d k =>
      simp only [insert, R_bind_eq_error] at h
      rcases h with h | ⟨_, _, h⟩
      · exact (ih d h).imp (fun h => ⟨h.1, fun hn => h.2 (hn d)⟩) id
      · cases h
  | ext n c ih =>
    intro k h
    simp only [insert] at h
    split at h
    · simp only [R_bind_eq_error] at h
      rcases h with h | ⟨_, _, h⟩
      · exact ih h
      · cases h
    · rename_i hp
      exfalso
      obtain ⟨p, a, b, rfl, rfl, hl, _⟩ := cpl_split n k
      rw [hl, List.drop_left, List.drop_left] at h
      cases a with
      | nil => exact hp (.inl (by simp))
      | cons x a =>
        cases b with
        | nil => exact hp (.inr (by simp))
        | cons y b => cases h
  | leaf n w =>
    intro k h
    simp only [insert] at h
    split at h
    · cases v with
      | val x => cases h
      | hash x => cases h; exact .inr ⟨rfl, .inl rfl⟩
    · rename_i hp
      obtain ⟨p, a, b, rfl, rfl, hl, _⟩ := cpl_split n k
      rw [hl, List.drop_left, List.drop_left] at h
      cases a with
      | nil =>
        cases b with
        | nil => exact absurd rfl hp
        | cons y b => cases h
      | cons x a =>
        cases b with
        | nil =>
          cases v with
          | val x => cases h
          | hash x => cases h; exact .inr ⟨rfl, .inr rfl⟩
        | cons y b => cases h

theorem noHashes_mkExt {n : Key} {c : LNode} (h : c.NoHashes) : (mkExt n c).NoHashes := by
  cases n <;> exact h

theorem noHashes_upd {cs : Fin 16 → LNode} {c : LNode} (d : Fin 16) (h : ∀ i, (cs i).NoHashes)
    (hc : c.NoHashes) : ∀ i, (upd cs d c i).NoHashes := by
  intro i
  by_cases e : i = d
  · subst e; simpa using hc
  · simpa only [upd_other _ _ e] using h i

theorem insert_noHashes {x : Bytes} : ∀ {l : LNode} {k : Key} {r : LNode}, l.NoHashes →
    l.insert k (.val x) = .ok r → r.NoHashes := by
  intro l
  induction l with
  | empty => intro k r _ h; cases h; trivial
  | hash x => intro k r _ h; cases h
  | branch cs w ih =>
    intro k r hl h
    cases k with
    | nil => cases h; exact hl
    | cons d k =>
      simp only [insert, R_bind_eq_ok] at h
      obtain ⟨c, hc, h⟩ := h
      cases h
      exact noHashes_upd d hl (ih d (hl d) hc)
  | ext n c ih =>
    intro k r hl h
    simp only [insert] at h
    split at h
    · simp only [R_bind_eq_ok] at h
      obtain ⟨c', hc, h⟩ := h
      cases h
      exact ih (k := k.drop n.length) (r := c') hl hc
    · split at h
      · cases h
        exact noHashes_mkExt (noHashes_upd _ (noHashes_upd _ (fun _ => trivial) (noHashes_mkExt hl)) trivial)
      · cases h
  | leaf n w =>
    intro k r hl h
    simp only [insert] at h
    split at h
    · cases h; trivial
    · split at h
      · cases h; exact noHashes_mkExt (noHashes_upd _ (fun _ => trivial) trivial)
      · cases h; exact noHashes_mkExt (noHashes_upd _ (fun _ => trivial) trivial)
      · cases h
        exact noHashes_mkExt (noHashes_upd _ (noHashes_upd _ (fun _ => trivial) trivial) trivial)
      · cases h

theorem extendL_panics {e : Panic} : ∀ (xs : List (Key × ValOrHash)) {l : LNode},
    PSys.extendL l xs = .error e →
    (e = .hashInsert ∧ (¬ l.NoHashes ∨ xs.all (fun x => x.2.isVal) = false)) ∨
      (xs.all (fun x => x.2.isVal) = false ∧ (e = .hashOnExisting ∨ e = .expectFailed))
  | [], _, h => by cases h
  | (k, v) :: xs, l, h => by
    simp only [PSys.extendL, R_bind_eq_error] at h
    rcases h with h | ⟨r, hr, h⟩
    · rcases insert_panics h with h | h
      · exact .inl ⟨h.1, .inl h.2⟩
      · exact .inr ⟨by simp [h.1], h.2⟩
    · cases hv : v.isVal with
      | false =>
        rcases extendL_panics xs h with h | h
        · exact .inl ⟨h.1, .inr (by simp [hv])⟩
        · exact .inr ⟨by simp [hv], h.2⟩
      | true =>
        rcases extendL_panics xs h with h | h
        · refine .inl ⟨h.1, h.2.imp (fun hn hl => hn ?_) (fun h => by simp only [List.all_cons, h, Bool.and_false])⟩
          cases v with
          | val x => exact insert_noHashes hl hr
          | hash x => cases hv
        · exact .inr ⟨by simp only [List.all_cons, h.1, Bool.and_false], h.2⟩

theorem get_panics {P : Profile} {e : Panic} : ∀ {l : LNode} {k : Key}, l.get P k = .error e →
    P.overflowChecks = true ∧ e = .overflow := by
  intro l
  induction l with
  | empty => intro k h; cases h
  | hash x => intro k h; cases h
  | leaf n v => intro k h; cases h
  | branch cs w ih =>
    intro k h
    cases k with
    | nil => cases h
    | cons d k => exact ih d h
  | ext n c ih =>
    intro k h
    simp only [get] at h
    split at h
    · split at h
      · exact ih h
      · cases h
    · split at h
      · rename_i hP; cases h; exact ⟨hP, rfl⟩
      · split at h
        · exact ih h
        · cases h

theorem collapseA_panics {n : Key} {c : LNode} (hc : c ≠ .empty) {e : Panic}
    (h : collapseA n c = .error e) : e = .assertFailed := by
  cases c with
  | empty => exact absurd rfl hc
  | hash x => cases h
  | branch cs v => cases h
  | ext m c => simp only [collapseA] at h; split at h <;> cases h; rfl
  | leaf m v => simp only [collapseA] at h; split at h <;> cases h; rfl

theorem tryCollapseA_panics {c : LNode} (hc : c.ExtOccupied) {e : Panic}
    (h : tryCollapseA c = .error e) : e = .assertFailed := by
  cases c with
  | ext n c => exact collapseA_panics (hc n c rfl) h
  | _ => cases h

theorem collapseA_occupied {n : Key} {c r : LNode} (hc : c.ExtOccupied) (h : collapseA n c = .ok r) :
    r.ExtOccupied ∧ r ≠ .empty := by
  cases c with
  | empty => cases h
  | hash x => cases h; exact ⟨by rintro _ _ ⟨⟩; simp, by simp⟩
  | branch cs v => cases h; exact ⟨by rintro _ _ ⟨⟩; simp, by simp⟩
  | ext m c =>
    simp only [collapseA] at h
    split at h <;> cases h
    exact ⟨by rintro _ _ ⟨⟩; exact hc m c rfl, by simp⟩
  | leaf m v =>
    simp only [collapseA] at h
    split at h <;> cases h
    exact ⟨by rintro _ _ ⟨⟩, by simp⟩

theorem other_occupied {cs : Fin 16 → LNode} {d i : Fin 16} (h : other cs d = some i) : cs i ≠ .empty := by
  intro e
  have := List.find?_some h
  simp [e, isEmpty] at this

/-- The panics of a deletion without the final collapse; and the result if it returns. -/
theorem deleteRecA_panics : ∀ {l : LNode} {k : Key}, l.ExtOK →
    (∀ e, l.deleteRecA k = .error e → e = .hashDelete ∨ e = .expectFailed ∨ e = .assertFailed) ∧
    ∀ r x, l.deleteRecA k = .ok (some (r, x)) → r.ExtOccupied ∧ (l.isBH → r ≠ .empty) := by
  intro l
  induction l with
  | empty => intro k _; exact ⟨fun e h => (by cases h), fun r x h => (by cases h)⟩
  | hash y =>
    intro k _
    exact ⟨fun e h => (by cases h; exact .inl rfl), fun r x h => (by cases h)⟩
  | leaf n v =>
    intro k _
    refine ⟨fun e h => (by cases h), fun r x h => ?_⟩
    simp only [deleteRecA] at h
    split at h <;> cases h
    exact ⟨by rintro _ _ ⟨⟩, fun h => h.elim⟩
  | branch cs v ih =>
    intro k hl
    cases k with
    | nil =>
      refine ⟨fun e h => (by cases h), fun r x h => ?_⟩
      cases h
      exact ⟨by rintro _ _ ⟨⟩, fun _ => by simp⟩
    | cons d k =>
      obtain ⟨i1, i2⟩ := ih d (k := k) (hl d)
      constructor
      · intro e h
        simp only [deleteRecA, R_bind_eq_error] at h
        rcases h with h | ⟨o, ho, h⟩
        · exact i1 e h
        · cases o with
          | none => cases h
          | some cx =>
            obtain ⟨c, y⟩ := cx
            simp only at h
            split at h
            · split at h
              · cases h
              · cases h; exact .inr (.inl rfl)
            · simp only [R_bind_eq_error] at h
              rcases h with h | ⟨_, _, h⟩
              · exact .inr (.inr (tryCollapseA_panics (i2 c y ho).1 h))
              · cases h
      · intro r x h
        simp only [deleteRecA, R_bind_eq_ok] at h
        obtain ⟨o, ho, h⟩ := h
        cases o with
        | none => cases h
        | some cx =>
          obtain ⟨c, y⟩ := cx
          simp only at h
          split at h
          · split at h
            · rename_i i hi
              cases h
              exact ⟨by rintro _ _ ⟨⟩; exact other_occupied hi, fun _ => by simp⟩
            · cases h
          · simp only [R_bind_eq_ok] at h
            obtain ⟨c', _, h⟩ := h
            cases h
            exact ⟨by rintro _ _ ⟨⟩, fun _ => by simp⟩
  | ext n c ih =>
    intro k hl
    obtain ⟨i1, i2⟩ := ih (k := k.drop n.length) hl.2.2
    constructor
    · intro e h
      simp only [deleteRecA] at h
      split at h
      · simp only [R_bind_eq_error] at h
        rcases h with h | ⟨o, ho, h⟩
        · exact i1 e h
        · cases o with
          | none => cases h
          | some cx =>
            obtain ⟨c', y⟩ := cx
            simp only [R_bind_eq_error] at h
            rcases h with h | ⟨_, _, h⟩
            · exact .inr (.inr (collapseA_panics ((i2 c' y ho).2 hl.2.1) h))
            · cases h
      · cases h
    · intro r x h
      refine ⟨?_, fun h => h.elim⟩
      simp only [deleteRecA] at h
      split at h
      · simp only [R_bind_eq_ok] at h
        obtain ⟨o, ho, h⟩ := h
        cases o with
        | none => cases h
        | some cx =>
          obtain ⟨c', y⟩ := cx
          simp only [R_bind_eq_ok] at h
          obtain ⟨r', hr, h⟩ := h
          cases h
          exact (collapseA_occupied (i2 c' _ ho).1 hr).1
      · cases h

theorem deleteA_panics {l : LNode} {k : Key} (hl : l.ExtOK) {e : Panic} (h : l.deleteA k = .error e) :
    e = .hashDelete ∨ e = .expectFailed ∨ e = .assertFailed := by
  obtain ⟨i1, i2⟩ := deleteRecA_panics (k := k) hl
  simp only [deleteA, R_bind_eq_error] at h
  rcases h with h | ⟨o, ho, h⟩
  · exact i1 e h
  · cases o with
    | none => cases h
    | some cx =>
      obtain ⟨c, y⟩ := cx
      simp only [R_bind_eq_error] at h
      rcases h with h | ⟨_, _, h⟩
      · exact .inr (.inr (tryCollapseA_panics (i2 c y ho).1 h))
      · cases h

end LNode

namespace LTracked

variable {P : Profile} {e : Panic}

theorem mark_panics : ∀ {t : LTracked} {k : Key}, t.mark P k = .error e →
    P.overflowChecks = true ∧ e = .overflow := by
  intro t
  induction t with
  | empty b => intro k h; cases h
  | hash x b => intro k h; cases h
  | leaf n v b => intro k h; cases h
  | branch cs v b ih =>
    intro k h
    cases k with
    | nil => cases h
    | cons d k =>
      simp only [mark, R_bind_eq_error] at h
      rcases h with h | ⟨o, _, h⟩
      · exact ih d h
      · cases o <;> cases h
  | ext n c b ih =>
    intro k h
    simp only [mark, R_bind_eq_error] at h
    rcases h with h | ⟨o, _, h⟩
    · unfold extRest at h
      split at h
      · split at h <;> cases h
      · split at h
        · rename_i hP; cases h; exact ⟨hP, rfl⟩
        · split at h <;> cases h
    · cases o with
      | none => cases h
      | some k' =>
        simp only [R_bind_eq_error] at h
        rcases h with h | ⟨o, _, h⟩
        · exact ih h
        · cases o <;> cases h

theorem markAll_panics : ∀ (ks : List Key) {t : LTracked}, t.markAll P ks = .error e →
    P.overflowChecks = true ∧ e = .overflow
  | [], _, h => by cases h
  | k :: ks, t, h => by
    simp only [markAll, R_bind_eq_error] at h
    rcases h with h | ⟨o, _, h⟩
    · exact mark_panics h
    · cases o with
      | error k => cases h
      | ok t' => exact markAll_panics ks h

end LTracked

theorem PSys.subsetsX_panics {P : Profile} {C : Bool} {kec : Bytes → H256} {e : Panic} :
    ∀ (kss : List (List Key)) {t : LTracked} {cell : Option H256},
    PSys.subsetsX P C kec t cell kss = .error e → P.overflowChecks = true ∧ e = .overflow
  | [], _, _, h => by cases h
  | ks :: kss, t, cell, h => by
    simp only [PSys.subsetsX, R_bind_eq_error] at h
    rcases h with h | ⟨o, _, h⟩
    · exact LTracked.markAll_panics ks h
    · cases o with
      | error k => cases h
      | ok t' =>
        simp only [R_bind_eq_error] at h
        rcases h with h | ⟨⟨o, c⟩, _, h⟩
        · exact PSys.subsetsX_panics kss h
        · cases o <;> cases h

theorem PSys.exec_panics {P : Profile} {C : Bool} {kec : Bytes → H256} {p : PSys} {c : Cmd} {e : Panic}
    (hp : ∀ a ∈ p.hs, a.1.ExtOK) (h : p.exec P C kec c = .error e) : e ∈ c.panics P := by
  have hon : ∀ {i : Nat} {f : LNode × Nat → R (PSys × Obs)}, p.on i f = .error e →
      ∃ t, t.1.ExtOK ∧ f t = .error e := by
    intro i f h
    unfold PSys.on at h
    split at h
    · cases h
    · rename_i t ht
      exact ⟨t, hp t (List.mem_of_getElem? ht), h⟩
  have hov : P.overflowChecks = true ∧ e = .overflow →
      e ∈ if P.overflowChecks then [Panic.overflow] else [] := by
    rintro ⟨hP, rfl⟩; simp only [hP, if_true, List.mem_singleton]
  cases c with
  | new => cases h
  | clone i => obtain ⟨t, _, h⟩ := hon h; cases h
  | hash i => obtain ⟨t, _, h⟩ := hon h; cases h
  | eq i j =>
    obtain ⟨t, _, h⟩ := hon h
    obtain ⟨u, _, h⟩ := hon h
    cases h
  | fromIter xs =>
    simp only [PSys.exec, R_bind_eq_error] at h
    rcases h with h | ⟨_, _, h⟩
    · simp only [Cmd.panics]
      rcases LNode.extendL_panics xs h with ⟨he, hx | hx⟩ | ⟨hx, he⟩
      · exact absurd trivial hx
      · rw [if_neg (by rw [hx]; decide), he]; decide
      · rw [if_neg (by rw [hx]; decide)]; rcases he with he | he <;> rw [he] <;> decide
    · cases h
  | insert i k v =>
    obtain ⟨t, _, h⟩ := hon h
    simp only [R_bind_eq_error] at h
    rcases h with h | ⟨_, _, h⟩
    · rcases LNode.insert_panics h with ⟨he, _⟩ | ⟨hv, he⟩
      · rw [he]; cases v <;> simp [Cmd.panics]
      · cases v with
        | val x => cases hv
        | hash x => rcases he with he | he <;> rw [he] <;> simp [Cmd.panics]
    · cases h
  | extend i xs =>
    obtain ⟨t, _, h⟩ := hon h
    simp only [R_bind_eq_error] at h
    rcases h with h | ⟨_, _, h⟩
    · simp only [Cmd.panics]
      rcases LNode.extendL_panics xs h with ⟨he, _⟩ | ⟨hx, he⟩
      · rw [he]; split <;> decide
      · rw [if_neg (by rw [hx]; decide)]; rcases he with he | he <;> rw [he] <;> decide
    · cases h
  | delete i k =>
    obtain ⟨t, ht, h⟩ := hon h
    simp only [R_bind_eq_error] at h
    rcases h with h | ⟨_, _, h⟩
    · rcases LNode.deleteA_panics ht h with rfl | rfl | rfl <;> simp [Cmd.panics]
    · cases h
  | get i k =>
    obtain ⟨t, _, h⟩ := hon h
    simp only [R_bind_eq_error] at h
    rcases h with h | ⟨_, _, h⟩
    · exact hov (LNode.get_panics h)
    · cases h
  | items i =>
    obtain ⟨t, _, h⟩ := hon h
    simp only [R_bind_eq_error] at h
    rcases h with h | ⟨_, _, h⟩
    · unfold LNode.itemsA at h
      split at h <;> cases h
      simp [Cmd.panics]
    · cases h
  | subset i ks =>
    obtain ⟨t, _, h⟩ := hon h
    simp only [R_bind_eq_error] at h
    rcases h with h | ⟨o, _, h⟩
    · exact hov (LTracked.markAll_panics ks h)
    · cases o <;> cases h
  | subsets i kss =>
    obtain ⟨t, _, h⟩ := hon h
    simp only [R_bind_eq_error] at h
    rcases h with h | ⟨⟨o, _⟩, _, h⟩
    · exact hov (PSys.subsetsX_panics kss h)
    · cases o <;> cases h

theorem Cmd.panics_possible {P : Profile} {c : Cmd} {e : Panic} (h : e ∈ c.panics P) :
    e = .hashInsert ∨ e = .hashOnExisting ∨ e = .expectFailed ∨ e = .hashDelete ∨ e = .assertFailed ∨
      (e = .overflow ∧ P.overflowChecks = true) := by
  unfold Cmd.panics at h
  split at h <;> (try split at h) <;> simp only [List.mem_cons, List.not_mem_nil, or_false] at h <;> tauto

section

variable {K : Kind} {M : Mode} {P : Profile} {kec : Bytes → H256} {s : Sys K.Ann K.State}

/-- C82: in any state that programs reach, with stale cells or not, a call (with keys of up to 127 nibbles)
that panics ends with one of the panics in `Cmd.panics`. -/
theorem C82_only (h : Live K M P kec s) {c : Cmd} (hs : c.Short) {e : Panic}
    (he : s.exec P kec c = .error e) : e ∈ c.panics P := by
  obtain ⟨w, p, Z, h1, _⟩ := h.inv.ex
  have := exec_refine (L := Kind.laws kec K) (P := P) (K.cells_real kec) h1 hs
  refine PSys.exec_panics (C := K.cells) (kec := kec) (p := p) (fun a ha => ?_) ?_
  · rw [h1.phs] at ha
    obtain ⟨z, hz, rfl⟩ := List.mem_map.1 ha
    exact (h1.ok z hz).ext
  · revert this
    cases hp : p.exec P K.cells kec c with
    | error e' =>
      intro hx
      rw [show s.exec P kec c = .error e' from hx] at he
      cases he; rfl
    | ok r =>
      rintro ⟨s', w', Z', hx, _⟩
      rw [hx] at he; cases he

/-- C82: indices are never out of bounds, extensions never lead to empty nodes where they are collapsed,
and `unreachable!()` is not reached.  Without overflow checks there are no overflow panics. -/
theorem C82_never (h : Live K M P kec s) {c : Cmd} (hs : c.Short) {e : Panic}
    (he : s.exec P kec c = .error e) :
    e ≠ .indexOutOfBounds ∧ e ≠ .impossibleExtChild ∧ e ≠ .unreachableCode ∧
      (P.overflowChecks = false → e ≠ .overflow) := by
  have h1 := Cmd.panics_possible (C82_only h hs he)
  refine ⟨?_, ?_, ?_, fun hP => ?_⟩ <;> rintro rfl
  · simp at h1
  · simp at h1
  · simp at h1
  · simp [hP] at h1

/-- C82 for whole programs from the start (nothing else is assumed about them): a panic is one of those of
one of the calls. -/
theorem C82_program (K : Kind) (P : Profile) (kec : Bytes → H256) {cs : List Cmd} (hc : ∀ c ∈ cs, c.Short)
    {e : Panic} (he : K.obs P kec cs = .error e) : ∃ c ∈ cs, e ∈ c.panics P := by
  have key : ∀ (cs : List Cmd) (w : (Kind.laws kec K).W) (s : Sys K.Ann K.State) (p : PSys)
      (Z : List (Trie K.Ann × LNode × Nat)), Inv (L := Kind.laws kec K) kec w s p Z → (∀ c ∈ cs, c.Short) →
      s.run P kec cs = .error e → ∃ c ∈ cs, e ∈ c.panics P := by
    intro cs
    induction cs with
    | nil => intro w s p Z _ _ h; cases h
    | cons c cs ih =>
      intro w s p Z h1 hc h
      have h2 := exec_refine (L := Kind.laws kec K) (P := P) (K.cells_real kec) h1 (hc c List.mem_cons_self)
      cases hp : p.exec P K.cells kec c with
      | error e' =>
        rw [hp] at h2
        simp only [Sys.run, show s.exec P kec c = .error e' from h2, R_bind_err] at h
        cases h
        exact ⟨c, List.mem_cons_self, PSys.exec_panics (fun a ha => by
          rw [h1.phs] at ha
          obtain ⟨z, hz, rfl⟩ := List.mem_map.1 ha
          exact (h1.ok z hz).ext) hp⟩
      | ok po =>
        rw [hp] at h2
        obtain ⟨s', w', Z', g1, _, g3⟩ := h2
        simp only [Sys.run, g1, R_bind_ok, R_bind_eq_error] at h
        rcases h with h | ⟨_, _, h⟩
        · obtain ⟨c', hc', he'⟩ := ih w' s' _ Z' g3 (fun c' hc' => hc c' (List.mem_cons_of_mem _ hc')) h
          exact ⟨c', List.mem_cons_of_mem _ hc', he'⟩
        · cases h
  refine key cs (K.initW kec) K.start PSys.start []
    ⟨(Kind.st_initW kec K).symm, rfl, rfl, by simp, by simp, by simp, fun _ _ => rfl⟩ hc ?_
  unfold Kind.obs at he
  cases hr : K.run P kec cs with
  | error e' => rw [hr] at he; cases he; exact hr
  | ok r => rw [hr] at he; cases he

end

/-! ## All of them occur

In every list of `Cmd.panics`, every panic occurs, at a call of that kind. -/

variable (P : Profile) (kec : Bytes → H256) (x : H256)

/-- Insertions that meet a hash, of values or hashes. -/
theorem C82_hashInsert (K : Kind) (v : ValOrHash) :
    K.obs P kec [.fromIter [([1, 2], .hash x)], .insert 0 [1, 2, 3] v] = .error .hashInsert ∧
    K.obs P kec [.fromIter [([1, 2], .hash x)], .extend 0 [([1, 2, 3], v)]] = .error .hashInsert ∧
    K.obs P kec [.fromIter [([1, 2], .hash x), ([1, 2, 3], v)]] = .error .hashInsert := by
  obtain ⟨P⟩ := P; cases K <;> cases P <;> cases v <;> refine ⟨?_, ?_, ?_⟩ <;> kernel_rfl

/-- Hashes under keys that are stored. -/
theorem C82_hashOnExisting (K : Kind) :
    K.obs P kec [.fromIter [([1, 2], .val [7])], .insert 0 [1, 2] (.hash x)] = .error .hashOnExisting ∧
    K.obs P kec [.fromIter [([1, 2], .val [7])], .extend 0 [([1, 2], .hash x)]] = .error .hashOnExisting ∧
    K.obs P kec [.fromIter [([1, 2], .val [7]), ([1, 2], .hash x)]] = .error .hashOnExisting := by
  obtain ⟨P⟩ := P; cases K <;> cases P <;> refine ⟨?_, ?_, ?_⟩ <;> kernel_rfl

/-- Hashes under prefixes of keys that are stored; deletions of the last child of a branch with a value. -/
theorem C82_expectFailed (K : Kind) :
    K.obs P kec [.fromIter [([1, 2], .val [7])], .insert 0 [1] (.hash x)] = .error .expectFailed ∧
    K.obs P kec [.fromIter [([1, 2], .val [7])], .extend 0 [([1], .hash x)]] = .error .expectFailed ∧
    K.obs P kec [.fromIter [([1, 2], .val [7]), ([1], .hash x)]] = .error .expectFailed ∧
    K.obs P kec [.fromIter [([1], .val [7]), ([1, 2], .val [8])], .delete 0 [1, 2]] =
      .error .expectFailed := by
  obtain ⟨P⟩ := P; cases K <;> cases P <;> refine ⟨?_, ?_, ?_, ?_⟩ <;> kernel_rfl

/-- Deletions that meet a hash. -/
theorem C82_hashDelete (K : Kind) :
    K.obs P kec [.fromIter [([1, 2], .hash x)], .delete 0 [1, 2, 3]] = .error .hashDelete := by
  obtain ⟨P⟩ := P; cases K <;> cases P <;> kernel_rfl

/-- Deletions that leave a leaf with more than 64 nibbles; iteration over a key of more than 64 nibbles. -/
theorem C82_assertFailed (K : Kind) :
    K.obs P kec [.fromIter [(List.replicate 70 1, .val [7]), (List.replicate 40 1 ++ [2], .val [8])],
      .delete 0 (List.replicate 40 1 ++ [2])] = .error .assertFailed ∧
    K.obs P kec [.fromIter [(List.replicate 70 1, .val [7])], .items 0] = .error .assertFailed := by
  obtain ⟨P⟩ := P; cases K <;> cases P <;> refine ⟨?_, ?_⟩ <;> kernel_rfl

/-- Lookups, with overflow checks, of keys that end inside an extension. -/
theorem C82_overflow (K : Kind) :
    K.obs ⟨true⟩ kec [.fromIter [([1, 2, 3], .val [7]), ([1, 2, 4], .val [8])], .get 0 [1]] =
      .error .overflow ∧
    K.obs ⟨true⟩ kec [.fromIter [([1, 2, 3], .val [7]), ([1, 2, 4], .val [8])], .subset 0 [[1]]] =
      .error .overflow ∧
    K.obs ⟨true⟩ kec [.fromIter [([1, 2, 3], .val [7]), ([1, 2, 4], .val [8])], .subsets 0 [[[1]]]] =
      .error .overflow := by
  cases K <;> refine ⟨?_, ?_, ?_⟩ <;> kernel_rfl

/-- A state (reached with hashes in the trie) and a call that meet the hypotheses of `C82_only`. -/
example (K : Kind) : Live K .noEmptySubset P kec0 (K.after P [.fromIter [([1, 2], .hash (kec0 []))]]) ∧
    (Cmd.insert 0 [1, 2, 3] (.val [7])).Short ∧
    (K.after P [.fromIter [([1, 2], .hash (kec0 []))]]).exec P kec0 (.insert 0 [1, 2, 3] (.val [7])) =
      .error .hashInsert := by
  refine ⟨Kind.after_live ?_ ?_ ?_, by simp only [Cmd.Short]; decide, ?_⟩
  · obtain ⟨P⟩ := P; cases K <;> cases P <;> decide +kernel
  · simp only [List.forall_mem_cons, Cmd.Short]
    exact ⟨by decide, nofun⟩
  · cases K <;> simp [permitted]
  · obtain ⟨P⟩ := P; cases K <;> cases P <;> kernel_rfl

end EthTrie
