import Verif.Sys.Live
import Verif.Trie.CanonIff
import Verif.Trie.CleanExact

/-!
# The states that programs reach
-/

namespace EthTrie

open Spec KMap LNode Nibbles

/-- The states that can be reached from the start of a program, or from any other state in which all tries
are canonical, by calls that keep tries canonical (`Tame`), are permitted and do not panic.  Supported
calls are such calls. -/
inductive Reached (K : Kind) (M : Mode) (P : Profile) (kec : Bytes → H256) :
    Sys K.Ann K.State → Prop
  | of {s : Sys K.Ann K.State} (h : Live K M P kec s) (hc : ∀ t ∈ s.hs, t.Canonical) :
      Reached K M P kec s
  | step {s s' : Sys K.Ann K.State} {c : Cmd} {o : Obs} (h : Reached K M P kec s)
      (hs : Tame s.contents c) (hp : permitted K M c)
      (he : s.exec P kec c = .ok (s', o)) : Reached K M P kec s'

theorem Reached.start {K : Kind} {M : Mode} {P : Profile} {kec : Bytes → H256} :
    Reached K M P kec K.start := .of .start fun _ h => nomatch h

theorem tame_short {ms : List KMap} {c : Cmd} (h : Tame ms c) : c.Short := by
  cases c with
  | fromIter xs => exact h.1
  | insert i k v => exact h.1
  | extend i xs => exact h.1
  | delete i k => exact h.1
  | get i k => exact h
  | subset i ks => exact h
  | subsets i kss => exact h
  | _ => trivial

theorem PutsOK.clean : ∀ {xs : List (Key × ValOrHash)} {m : KMap}, PutsOK m xs → PutsClean m xs := by
  intro xs
  induction xs with
  | nil => intros; trivial
  | cons x xs ih =>
    obtain ⟨k, v⟩ := x
    rintro m ⟨_, h1, h2⟩
    obtain ⟨g1, g2⟩ := h1.exact
    refine ⟨fun t ht => ?_, fun t m' ht hi => ?_⟩
    · rw [ht.unique g1]; exact h1.clean
    · rw [ht.unique g1, g2] at hi
      cases hi
      exact ih h2

theorem DeleteOK.clean {m : KMap} {k t : Key} (h : DeleteOK m k) (ht : Lands m k t) : DeleteClean m t := by
  have : t = k := by
    refine ht.unique (.inl ⟨fun ⟨h1, h2, _, h4⟩ => ?_, rfl⟩)
    rcases h.absent h1 with h5 | h5
    · exact h5 h2
    · exact h4 h5
  subst this
  intro h1 h2
  rcases h.branch h1 with h3 | h3
  · exact absurd h2 h3
  · exact h3

/-- Supported calls keep tries canonical. -/
theorem supported_tame {P : Profile} {ms : List KMap} {c : Cmd} (h : Supported P ms c) : Tame ms c := by
  cases c with
  | fromIter xs => exact ⟨PSys.putsOK_short xs _ h, PutsOK.clean h⟩
  | insert i k v => 
    refine ⟨h.1, fun m t hm ht => ?_⟩
    rw [ht.unique (h.2 m hm).exact.1]
    exact (h.2 m hm).clean
  | extend i xs => exact ⟨h.1, fun m hm => PutsOK.clean (h.2 m hm)⟩
  | delete i k => exact ⟨h.1, fun m t hm ht => DeleteOK.clean (h.2 m hm).1 ht⟩
  | get i k => exact h.1
  | subset i ks => exact h.1
  | subsets i kss => exact h.1
  | _ => trivial

theorem extendL_clean : ∀ (xs : List (Key × ValOrHash)) (l l' : LNode), l.Canon →
    PutsClean (absL l) xs → PSys.extendL l xs = .ok l' → l'.Canon := by
  intro xs
  induction xs with
  | nil => intro l l' hc _ h; cases h; exact hc
  | cons x xs ih =>
    obtain ⟨k, v⟩ := x
    intro l l' hc h he
    simp only [PSys.extendL, R_bind_eq_ok] at he
    obtain ⟨l₁, h1, h2⟩ := he
    obtain ⟨t, h3, h4⟩ := insert_exact v l k hc
    rw [h1] at h4
    exact ih l₁ l' ((insert_clean v l k t l₁ hc h3 h1).1.2 (h.1 t h3)) (h.2 t _ h3 h4.symm) h2

theorem subsetsL_canon {P : Profile} {kec : Bytes → H256} : ∀ (kss : List (List Key)) (t : LTracked)
    (ls : List LNode), t.node.Canon → PSys.subsetsL P kec t kss = .ok (.ok ls) → ∀ l ∈ ls, l.Canon := by
  intro kss
  induction kss with
  | nil => intro t ls _ h; cases h; simp
  | cons ks kss ih =>
    intro t ls hc h
    simp only [PSys.subsetsL, R_bind_eq_ok] at h
    obtain ⟨r, h1, h2⟩ := h
    cases r with
    | error k => cases h2
    | ok t' =>
      simp only [R_bind_eq_ok] at h2
      obtain ⟨r, h3, h4⟩ := h2
      cases r with
      | error k => cases h4
      | ok rs =>
        cases h4
        intro l hl
        rcases List.mem_cons.1 hl with rfl | hl
        · exact (PSys.subset_spec hc rfl h1).1
        · refine ih t'.reset rs ?_ h3 l hl
          rw [LTracked.reset_node, LTracked.markAll_node P ks t t' h1]; exact hc

/-- A call that keeps tries canonical does. -/
theorem plainExec_canon {P : Profile} {kec : Bytes → H256} {ls ls' : List LNode} {c : Cmd} {o : Obs}
    (hs : Tame (ls.map absL) c) (hc : ∀ l ∈ ls, l.Canon) (h : plainExec P kec ls c = .ok (ls', o)) :
    ∀ l ∈ ls', l.Canon := by
  have hon : ∀ {i : Nat} {f : LNode → R (List LNode × Obs)}, onPlain ls i f = .ok (ls', o) →
      (∀ l, ls[i]? = some l → (ls.map absL)[i]? = some (absL l) → l.Canon → f l = .ok (ls', o) →
        ∀ l ∈ ls', l.Canon) → ∀ l ∈ ls', l.Canon := by
    intro i f h g
    unfold onPlain at h
    cases hi : ls[i]? with
    | none => rw [hi] at h; cases h; exact hc
    | some l =>
      rw [hi] at h
      exact g l hi (by rw [List.getElem?_map, hi]; rfl) (hc l (List.mem_of_getElem? hi)) h
  have happ : ∀ {new : List LNode}, (∀ l ∈ new, l.Canon) → ∀ l ∈ ls ++ new, l.Canon := by
    intro new hn l hl
    rcases List.mem_append.1 hl with hl | hl
    · exact hc l hl
    · exact hn l hl
  have hset : ∀ {i : Nat} {l' : LNode}, l'.Canon → ∀ l ∈ ls.set i l', l.Canon := by
    intro i l' hl' l hl
    rcases List.mem_or_eq_of_mem_set hl with hl | rfl
    · exact hc l hl
    · exact hl'
  cases c with
  | new => cases h; exact happ (by simp [Canon])
  | fromIter xs =>
    simp only [plainExec, R_bind_eq_ok] at h
    obtain ⟨l, h1, h2⟩ := h
    cases h2
    exact happ (by
      intro l' hl'
      rw [List.mem_singleton] at hl'
      subst hl'
      refine extendL_clean xs .empty _ trivial ?_ h1
      have := hs.2
      exact this)
  | clone i =>
    refine hon h fun l hi hm hl h => ?_
    cases h
    exact happ (by simpa using hl)
  | insert i k v =>
    refine hon h fun l hi hm hl h => ?_
    simp only [R_bind_eq_ok] at h
    obtain ⟨l', h1, h2⟩ := h
    cases h2
    obtain ⟨t, h3, _⟩ := insert_exact v l k hl
    exact hset ((insert_clean v l k t l' hl h3 h1).1.2 (hs.2 _ t hm h3))
  | extend i xs =>
    refine hon h fun l hi hm hl h => ?_
    simp only [R_bind_eq_ok] at h
    obtain ⟨l', h1, h2⟩ := h
    cases h2
    exact hset (extendL_clean xs l l' hl (hs.2 _ hm) h1)
  | delete i k =>
    refine hon h fun l hi hm hl h => ?_
    simp only [R_bind_eq_ok] at h
    obtain ⟨⟨l', x⟩, h1, h2⟩ := h
    cases h2
    replace h1 := deleteA_ok h1
    obtain ⟨t, h3, _⟩ := delete_exact (l := l) k hl
    exact hset ((delete_clean hl h3 h1).2 fun _ => hs.2 _ t hm h3)
  | get i k =>
    refine hon h fun l hi hm hl h => ?_
    simp only [R_bind_eq_ok] at h
    obtain ⟨l', h1, h2⟩ := h
    cases h2
    exact hc
  | hash i => exact hon h fun l hi hm hl h => by cases h; exact hc
  | items i =>
    refine hon h fun l hi hm hl h => ?_
    simp only [R_bind_eq_ok] at h
    obtain ⟨l', h1, h2⟩ := h
    cases h2
    exact hc
  | eq i j =>
    refine hon h fun l hi hm hl h => hon h fun l hi hm hl h => ?_
    cases h; exact hc
  | subset i ks =>
    refine hon h fun l hi hm hl h => ?_
    simp only [R_bind_eq_ok] at h
    obtain ⟨r, h1, h2⟩ := h
    cases r with
    | error k => cases h2; exact hc
    | ok t =>
      cases h2
      have := (PSys.subset_spec (kec := kec) hl (LTracked.node_new l) h1).1
      exact happ (by simpa using this)
  | subsets i kss =>
    refine hon h fun l hi hm hl h => ?_
    simp only [R_bind_eq_ok] at h
    obtain ⟨r, h1, h2⟩ := h
    cases r with
    | error k => cases h2; exact hc
    | ok rs =>
      cases h2
      exact happ (subsetsL_canon kss _ rs (by rw [LTracked.node_new]; exact hl) h1)

theorem subsetX_canon {C : Bool} {kec : Bytes → H256} {cell : Option H256} {t : LTracked}
    (h : (t.subset kec).Canon) : (t.subsetX C kec cell).1.Canon := by
  unfold LTracked.subsetX
  split
  · exact h
  · split
    · trivial
    · exact h

theorem subsetsX_canon {P : Profile} {C : Bool} {kec : Bytes → H256} : ∀ (kss : List (List Key))
    (t : LTracked) (cell cell' : Option H256) (ls : List LNode), t.node.Canon →
    PSys.subsetsX P C kec t cell kss = .ok (.ok ls, cell') → ∀ l ∈ ls, l.Canon := by
  intro kss
  induction kss with
  | nil => intro t cell cell' ls _ h; cases h; simp
  | cons ks kss ih =>
    intro t cell cell' ls hc h
    simp only [PSys.subsetsX, R_bind_eq_ok] at h
    obtain ⟨r, h1, h2⟩ := h
    cases r with
    | error k => cases h2
    | ok t' =>
      simp only [R_bind_eq_ok] at h2
      obtain ⟨⟨r, c⟩, h3, h4⟩ := h2
      cases r with
      | error k => cases h4
      | ok rs =>
        cases h4
        intro l hl
        rcases List.mem_cons.1 hl with rfl | hl
        · exact subsetX_canon (PSys.subset_spec hc rfl h1).1
        · refine ih t'.reset _ _ rs ?_ h3 l hl
          rw [LTracked.reset_node, LTracked.markAll_node P ks t t' h1]; exact hc

/-- The same with cache cells. -/
theorem PSys.exec_canon {P : Profile} {C : Bool} {kec : Bytes → H256} {p p' : PSys} {c : Cmd}
    {o : Obs} (hs : Tame ((p.hs.map (·.1)).map absL) c) (hc : ∀ l ∈ p.hs.map (·.1), l.Canon)
    (h : p.exec P C kec c = .ok (p', o)) : ∀ l ∈ p'.hs.map (·.1), l.Canon := by
  have hpl : p.Safe kec c → ∀ l ∈ p'.hs.map (·.1), l.Canon := by
    intro hsafe
    have := PSys.exec_plain P C hsafe
    rw [h] at this
    exact plainExec_canon hs hc this.symm
  have happ : ∀ {q : PSys} {new : List LNode}, q.hs = p.hs → (∀ l ∈ new, l.Canon) →
      ∀ l ∈ (q.push new).hs.map (·.1), l.Canon := by
    intro q new hq hn l hl
    rw [PSys.push_plains, hq] at hl
    rcases List.mem_append.1 hl with hl | hl
    · exact hc l hl
    · exact hn l hl
  cases c with
  | hash i =>
    rcases PSys.on_ok h with ⟨_, rfl, _⟩ | ⟨t, _, h⟩
    · exact hc
    · cases h; exact hc
  | subset i ks =>
    rcases PSys.on_ok h with ⟨_, rfl, _⟩ | ⟨t, ht, h⟩
    · exact hc
    · simp only [R_bind_eq_ok] at h
      obtain ⟨r, h1, h2⟩ := h
      have hl : t.1.Canon := hc _ (List.mem_map_of_mem (List.mem_of_getElem? ht))
      cases r with
      | error k => cases h2; exact hc
      | ok tr =>
        cases h2
        have := (PSys.subset_spec (kec := kec) hl (LTracked.node_new t.1) h1).1
        exact happ rfl (by simpa using subsetX_canon this)
  | subsets i kss =>
    rcases PSys.on_ok h with ⟨_, rfl, _⟩ | ⟨t, ht, h⟩
    · exact hc
    · simp only [R_bind_eq_ok] at h
      obtain ⟨⟨r, c⟩, h1, h2⟩ := h
      have hl : t.1.Canon := hc _ (List.mem_map_of_mem (List.mem_of_getElem? ht))
      cases r with
      | error k => cases h2; exact hc
      | ok rs =>
        cases h2
        exact happ rfl (subsetsX_canon kss _ _ _ rs (by rw [LTracked.node_new]; exact hl) h1)
  | _ => exact hpl trivial

theorem Inv.contents {kec : Bytes → H256} {α S : Type} [K : TrieKind α S] [L : KindLaws kec α S]
    {w : L.W} {s : Sys α S} {p : PSys} {Z : List (Trie α × LNode × Nat)} (h : Inv kec w s p Z) :
    s.contents = p.hs.map fun a => absL a.1 := by
  rw [Sys.contents, h.hs, h.phs, List.map_map, List.map_map]
  apply List.map_congr_left
  intro a ha
  simp only [Function.comp, Trie.contents, (h.ok a ha).rep.plain]

variable {K : Kind} {M : Mode} {P : Profile} {kec : Bytes → H256} {s : Sys K.Ann K.State}

theorem Reached.live (h : Reached K M P kec s) : Live K M P kec s := by
  induction h with
  | of h _ => exact h
  | step h hs hp he ih => exact .step ih (tame_short hs) hp he

theorem Sys.contents_plains {α S : Type} (s : Sys α S) : s.contents = s.plains.map absL := by
  rw [Sys.contents, Sys.plains, List.map_map]; rfl

theorem Reached.plains_canon (h : Reached K M P kec s) : ∀ l ∈ s.plains, l.Canon := by
  induction h with
  | of h hc =>
    intro l hl
    obtain ⟨t, ht, rfl⟩ := List.mem_map.1 hl
    exact plain_of_canonical t (hc t ht)
  | step h hs hp he ih =>
    obtain ⟨w, p, Z, h1, _⟩ := h.live.inv.ex
    have := exec_refine (L := Kind.laws kec K) (P := P) (K.cells_real kec) h1 (tame_short hs)
    rw [Sys.contents_plains, h1.plains] at hs
    rw [h1.plains] at ih
    revert this
    cases hp' : p.exec P K.cells kec _ with
    | error e => intro this; rw [show Sys.exec P kec _ _ = .error e from this] at he; cases he
    | ok r =>
      rintro ⟨s', w', Z', k1, k2, k3⟩
      rw [k1] at he
      cases he
      rw [k3.plains]
      exact PSys.exec_canon hs ih hp'

/-- Supported and permitted calls that read no stale cell do not panic and do what the specification
says. -/
theorem Reached.exec_fresh (h : Reached K M P kec s) {c : Cmd} (hs : Supported P s.contents c)
    (hp : permitted K M c) (hf : s.FreshFor kec c) : ∃ s' o, s.exec P kec c = .ok (s', o) ∧
      Step kec s.contents c o s'.contents ∧ Reached K M P kec s' := by
  have h1 := h.live.exec (P := P) (PSys.supported_short hs) hf
  have hs' := hs
  rw [Sys.contents_plains] at hs
  obtain ⟨ls', o, h2, h3, _⟩ := plainExec_spec (kec := kec) h.plains_canon hs
  rw [h2] at h1
  cases he : s.exec P kec c with
  | error e => rw [he] at h1; cases h1
  | ok r =>
    obtain ⟨s', o'⟩ := r
    rw [he] at h1
    simp only [plainRes, Except.map, Except.ok.injEq, Prod.mk.injEq] at h1
    obtain ⟨e1, rfl⟩ := h1
    refine ⟨s', o', rfl, ?_, .step h (supported_tame hs') hp he⟩
    rw [Sys.contents_plains, Sys.contents_plains, e1]
    exact h3

/-- Supported and permitted calls do not panic and do what the specification says. -/
theorem Reached.exec [M.Safe] (h : Reached K M P kec s) {c : Cmd} (hs : Supported P s.contents c)
    (hp : permitted K M c) : ∃ s' o, s.exec P kec c = .ok (s', o) ∧
      Step kec s.contents c o s'.contents ∧ Reached K M P kec s' :=
  h.exec_fresh hs hp (h.live.freshFor c)

/-- The same for sequences of calls. -/
theorem Reached.run [M.Safe] : ∀ (cs : List Cmd) {s : Sys K.Ann K.State}, Reached K M P kec s →
    SupportedRun P kec s.contents cs → (∀ c ∈ cs, permitted K M c) →
    ∃ s' os, s.run P kec cs = .ok (s', os) ∧ Steps kec s.contents cs os s'.contents ∧
      Reached K M P kec s' := by
  intro cs
  induction cs with
  | nil => intro s h _ _; exact ⟨s, [], rfl, .nil _, h⟩
  | cons c cs ih =>
    intro s h hs hp
    obtain ⟨s1, o, h1, h2, h3⟩ := h.exec hs.1 (hp c List.mem_cons_self)
    obtain ⟨s2, os, h4, h5, h6⟩ := ih h3 (hs.2 _ _ h2) fun c' hc' => hp c' (List.mem_cons_of_mem _ hc')
    exact ⟨s2, o :: os, by simp only [Sys.run, h1, R_bind_ok, h4]; rfl, .cons h2 h5, h6⟩

/-- Reached tries are canonical. -/
theorem Reached.canon (h : Reached K M P kec s) {t : Trie K.Ann} (ht : t ∈ s.hs) :
    t.plain.Canon ∧ t.plain.Bound 127 :=
  ⟨h.plains_canon _ (List.mem_map_of_mem ht), (h.live.shape ht).1⟩

end EthTrie
