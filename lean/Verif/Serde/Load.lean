import Verif.Serde.Untrusted
import Verif.Spec.Loaded
import Verif.Sys.Reps

/-!
# Deserialised tries in program states
-/

namespace EthTrie

open Spec KMap LNode Nibbles

theorem Trie.BranchOrHash.plain {α : Type} {t : Trie α} (h : t.BranchOrHash) : t.plain.isBH := by
  cases t <;> first | exact h | trivial

theorem formed_plain {α : Type} {kec : Bytes → H256} {t : Trie α} {b : Nat} (hb : b ≤ 128)
    (h : t.Formed b) : t.Plain kec ∧ t.plain.Bound b ∧ t.plain.ExtOK := by
  induction t generalizing b with
  | empty a => exact ⟨.empty (), trivial, trivial⟩
  | hash a x => exact ⟨.hash () x, trivial, trivial⟩
  | leaf a n v =>
    have hl := toList_length n
    refine ⟨?_, ?_, trivial⟩
    · have := RepN.leaf (L := lawsUnit kec) (w := ()) () n.toList v (by rw [hl]; exact h.2.trans hb)
      rw [ofList_toList h.1] at this
      exact this
    · exact (le_of_eq hl).trans h.2
  | ext a n c ih =>
    obtain ⟨h1, h2, h3, h4, h5⟩ := h
    have hl := toList_length n
    obtain ⟨g1, g2, g3⟩ := ih (by omega) h5
    refine ⟨?_, ⟨(le_of_eq hl).trans h3, by rw [hl]; exact g2⟩, ?_, h4.plain, g3⟩
    · have := RepN.ext (L := lawsUnit kec) (w := ()) () n.toList c.bare c.plain
        (by rw [hl]; exact h3.trans hb) g1 trivial
      rw [ofList_toList h1] at this
      exact this
    · intro e
      rw [e] at hl
      exact h2 hl.symm
  | branch a cs v ih =>
    have hc := fun i => ih i (by omega) (h.2 i)
    exact ⟨RepN.branch (L := lawsUnit kec) (w := ()) () _ _ v (fun i => (hc i).1) fun _ => trivial, ⟨h.1, fun i => (hc i).2.1⟩,
      fun i => (hc i).2.2⟩

theorem formed_sound {K : Kind} {P : Profile} {kec : Bytes → H256} {s : K.State} {t : Trie K.Ann} {b : Nat}
    (hb : b ≤ 128) (h : t.Formed b) (hi : ∀ q u, t.NodeAt q u → q ≠ [] → ∀ h, K.get s u.ann = some h →
      u.refer P kec = .ok (.hashed h)) : SoundN kec (K.get s) t t.plain := by
  induction t generalizing b with
  | empty a => exact .empty a
  | hash a x => exact .hash a x
  | leaf a n v =>
    have hl := toList_length n
    have := SoundN.leaf (kec := kec) (get := K.get s) a n.toList v (by rw [hl]; exact h.2.trans hb)
    rw [ofList_toList h.1] at this
    exact this
  | ext a n c ih =>
    obtain ⟨h1, h2, h3, h4, h5⟩ := h
    have hl := toList_length n
    have hp := (formed_plain (kec := kec) (b := b - n.count) (by omega) h5).1
    have hn : ∀ q : Key, n.toList ++ q ≠ [] := by
      intro q e
      have := (List.append_eq_nil_iff.1 e).1
      rw [this] at hl
      exact h2 hl.symm
    have := SoundN.ext (kec := kec) (get := K.get s) a n.toList c c.plain (by rw [hl]; exact h3.trans hb)
      (ih (by omega) h5 fun q u hu _ x hx => hi _ u (.ext a n c q u hu) (hn q) x hx) (by
        intro x hx
        have e := hi _ c (.ext a n c [] c (.here c)) (hn []) x hx
        rw [hp.refer] at e
        exact Except.ok.inj e)
    rw [ofList_toList h1] at this
    exact this
  | branch a cs v ih =>
    refine .branch a cs _ v (fun i => ih i (b := b - 1) (by omega) (h.2 i) fun q u hu _ x hx =>
      hi _ u (.branch a cs v i q u hu) (by simp) x hx) fun i x hx => ?_
    have e := hi _ (cs i) (.branch a cs v i [] (cs i) (.here _)) (by simp) x hx
    rw [(formed_plain (kec := kec) (b := b - 1) (by omega) (h.2 i)).1.refer] at e
    exact Except.ok.inj e

section
variable {kec : Bytes → H256} {α S : Type} [K : TrieKind α S] [L : KindLaws kec α S] {w : L.W}
  {s : Sys α S} {p : PSys} {Z : List (Trie α × LNode × Nat)}

/-- A new handle whose cell may be filled. -/
theorem Inv.pushFilled {w0 : L.W} {t : Trie α} {l : LNode} (h : Inv kec w s p Z)
    (hw : ∀ a ∈ Z, ∃ o, L.slot w0 a.1.ann o) (hr : RepN kec w t l) (hs : L.slot w t.ann none)
    (hf : L.real → ∀ b o, L.slot w0 b o → t.ann ≠ b) (hb : l.Bound 127) (he : l.ExtOK) :
    Inv kec w ⟨s.state, s.hs ++ [t]⟩ ⟨p.hs ++ [(l, p.next)],
      upd p.filled p.next (K.cacheGet t.ann (L.st w)), p.next + 1⟩ (Z ++ [(t, l, p.next)]) where
  state := h.state
  hs := by simp [h.hs]
  phs := by simp [h.phs]
  ok := fun a ha => by
    rw [List.mem_append, List.mem_singleton] at ha
    rcases ha with ha | rfl
    · have := h.ok a ha
      exact ⟨this.rep, this.slot, this.bound, this.ext, Nat.lt_succ_of_lt this.fam,
        this.cell.trans (upd_other _ _ (Nat.ne_of_lt this.fam)).symm⟩
    · exact ⟨hr, hs, hb, he, Nat.lt_succ_self _, (upd_same _ _ _).symm⟩
  share := fun a ha b hb => by
    rw [List.mem_append, List.mem_singleton] at ha hb
    rcases ha with ha | rfl <;> rcases hb with hb | rfl
    · exact h.share a ha b hb
    · intro e; exact absurd e (Nat.ne_of_lt (h.ok a ha).fam)
    · intro e; exact absurd e.symm (Nat.ne_of_lt (h.ok b hb).fam)
    · intro _; rfl
  sep := fun hR a ha b hb => by
    rw [List.mem_append, List.mem_singleton] at ha hb
    rcases ha with ha | rfl <;> rcases hb with hb | rfl
    · exact h.sep hR a ha b hb
    · intro e
      obtain ⟨o, ho⟩ := hw a ha
      exact absurd e.symm (hf hR _ _ ho)
    · intro e
      obtain ⟨o, ho⟩ := hw b hb
      exact absurd e (hf hR _ _ ho)
    · intro _; rfl
  above := fun f hf => (upd_other _ _ (by
    have hf : p.next + 1 ≤ f := hf
    omega)).trans (h.above f (Nat.le_of_succ_le hf))

end

theorem PSys.Own.pushFilled {kec : Bytes → H256} {p : PSys} (h : p.Own kec) {l : LNode} {o : Option H256}
    (ho : ∀ x, o = some x → l.enc kec = .hashed x) :
    (⟨p.hs ++ [(l, p.next)], upd p.filled p.next o, p.next + 1⟩ : PSys).Own kec := by
  refine ⟨?_, ?_, ?_, fun f hf => ?_⟩
  · intro a ha
    rcases List.mem_append.1 ha with ha | ha
    · exact Nat.lt_succ_of_lt (h.below a ha)
    · rw [List.mem_singleton] at ha; subst ha; exact Nat.lt_succ_self _
  · exact (PSys.Own.push h [l]).inj
  · intro a ha
    rcases List.mem_append.1 ha with ha | ha
    · have := h.below a ha
      simp only [upd_other _ _ (Nat.ne_of_lt this)]
      exact h.right a ha
    · rw [List.mem_singleton] at ha; subst ha
      simp only [upd_same]
      exact ho
  · have hf : p.next + 1 ≤ f := hf
    exact (upd_other _ _ (by omega)).trans (h.above f (by omega))

variable {K : Kind} {M : Mode} {P : Profile} {kec : Bytes → H256} {s : Sys K.Ann K.State}

theorem LiveInv.load (h : LiveInv K M kec s) {d : SData} {t : Trie K.Ann} {σ : K.State}
    (hd : (Trie.de K.cells d).run s.state = .ok (.ok t, σ)) (hv : t.Sound K M P kec σ) :
    LiveInv K M kec ⟨σ, s.hs ++ [t]⟩ := by
  obtain ⟨w, p, Z, h1, h2⟩ := h.ex
  have hn : K.cells = false → K.get σ t.ann = none := by
    intro hc
    cases K with
    | standard => rfl
    | hashed => cases hc
  obtain ⟨t', w', g1, g2, g3, g4, g5, g6, _⟩ := de_run (K := K)
    (formed_sound (by decide) hv.formed hv.inner) hn w
  rw [h1.state] at hd
  have e := read_again hd
  rw [g1] at e
  cases e
  obtain ⟨hp, hb, he⟩ := formed_plain (kec := kec) (by decide) hv.formed
  have i1 := h1.step g2 fun a ha => g3 _ _ (h1.ok a ha).slot
  have i2 := i1.pushFilled (w0 := w) (fun a ha => ⟨_, (h1.ok a ha).slot⟩) g4 g5 g6 hb he
  refine ⟨w', _, _, i2, fun hK => ?_⟩
  have h3 := h2 hK
  have hr := hv.root hK
  cases M with
  | any => trivial
  | noEmptySubset =>
    intro f
    by_cases ef : f = p.next
    · subst ef; exact (upd_same _ _ _).trans hr
    · exact (upd_other _ _ ef).trans (h3 f)
  | noClone =>
    refine PSys.Own.pushFilled h3 fun x hx => ?_
    have := hr x hx
    rw [hp.refer] at this
    exact Except.ok.inj this

/-- More cells, with any contents. -/
theorem exists_world {w : (Kind.laws kec K).W} {σ : K.State} (h : KeepS K ((Kind.laws kec K).st w) σ) :
    ∃ w', (Kind.laws kec K).st w' = σ ∧ (Kind.laws kec K).ole w w' ∧ Keep K kec w w' := by
  cases K with
  | standard => exact ⟨(), rfl, trivial, fun _ _ _ => rfl⟩
  | hashed =>
    have hk : ∀ c, c < w.heap.next → c < σ.next ∧ σ.cell c = w.heap.cell c := fun c hc => h ⟨c⟩ hc
    have hle : w.heap.next ≤ σ.next := by
      by_contra hlt
      have := (hk (w.heap.next - 1) (by omega)).1
      omega
    refine ⟨⟨σ, fun c => if c < w.heap.next then w.own c else none, ?_⟩, rfl,
      ⟨hle, fun c hc => if_pos hc⟩, fun a o hs => (hk a.id hs.1).2⟩
    intro c x l hc ho
    split at ho
    · rename_i hlt
      rw [(hk c hlt).2] at hc
      exact w.ok c x l hc ho
    · cases ho

/-- Reading data, with any result, and dropping the result. -/
theorem LiveInv.tried (h : LiveInv K M kec s) {d : SData} {r : Except DeError (Trie K.Ann)} {σ : K.State}
    (hd : (Trie.de K.cells d).run s.state = .ok (r, σ)) : LiveInv K M kec ⟨σ, s.hs⟩ := by
  obtain ⟨w, p, Z, h1, h2⟩ := h.ex
  obtain ⟨r', σ', e1, e2⟩ := harmless_de (K := K) K.cells d s.state
  rw [hd] at e1
  cases e1
  rw [h1.state] at e2
  obtain ⟨w', rfl, g2, g3⟩ := exists_world e2
  exact ⟨w', p, Z, h1.step g2 fun a ha => g3 _ _ (h1.ok a ha).slot, h2⟩

end EthTrie
