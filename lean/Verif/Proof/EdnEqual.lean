import Verif.Spec.EdnEqual
import Verif.Props.EdnLayout2
import Verif.Props.EdnNode
/-! Nodes read from text compare as the data written. -/
namespace Ab.Edn

open Spec Re

theorem tsameList_iff {A : Arith U64} {xs ys : List Tree} : TSameList A xs ys ↔ F2 (TSame A) xs ys := by
  constructor
  · intro h
    induction xs generalizing ys with
    | nil => cases h; exact .nil
    | cons x xs ih => cases h with | cons h1 h2 => exact .cons h1 (ih h2)
  · exact tsameList_of

theorem tsameEntries_iff {A : Arith U64} {xs ys : List (Tree × Tree)} :
    TSameEntries A xs ys ↔ F2 (fun e f => TSame A e.1 f.1 ∧ TSame A e.2 f.2) xs ys := by
  constructor
  · intro h
    induction xs generalizing ys with
    | nil => cases h; exact .nil
    | cons x xs ih => cases h with | cons h1 h2 h3 => exact .cons ⟨h1, h2⟩ (ih h3)
  · exact tsameEntries_of

/-- A literal gives one number. -/
theorem real_unique {A : Arith U64} {w neg ints frac ex neg' ints' frac' ex'} (h : RealText w neg ints frac ex)
    (hx : ex.natAbs < 2^63) (h' : RealText w neg' ints' frac' ex') :
    realIn A neg' ints' frac' ex' = realIn A neg ints frac ex := by
  have a := parseReal_spec A h
  have b := parseReal_spec A h'
  rw [a, if_pos hx] at b
  split at b
  · injection b with b; exact b.symm
  · cases b

/-- Trees that are the same data are read as nodes that are the same data. -/
theorem same_reads {L : Lib} {tab : SymTab} (hi : ∀ i j x, tab.string i = .ok x → tab.string j = .ok x → i = j) :
    ∀ t, ∀ t' n n', Writable L.arith t → Writable L.arith t' → Reads tab (asRead L) t n → Reads tab (asRead L) t' n' →
      TSame L.arith t t' → Same n n' := by
  apply Tree.ind
  · intro t' n n' w w' h h' hs; cases hs; cases h; cases h'; exact .nil
  · intro b t' n n' w w' h h' hs; cases hs; cases h; cases h'; exact .bool b
  · intro v t' n n' w w' h h' hs; cases hs; cases h; cases h'; exact .int _
  · intro u t' n n' w w' h h' hs
    cases hs with
    | real hs =>
      obtain ⟨_, _, _, _, _, _, _, _, s1, s2, hs⟩ := hs
      cases w with | real w1 w2 => cases w' with | real w1' w2' =>
      cases h with | real h => cases h' with | real h' =>
      obtain ⟨_, _, _, _, hr, rfl⟩ := h
      obtain ⟨_, _, _, _, hr', rfl⟩ := h'
      rw [real_unique w1 w2 hr, real_unique w1' w2' hr']
      rw [real_unique w1 w2 s1, real_unique w1' w2' s2] at hs
      exact .real hs
  · intro s t' n n' w w' h h' hs; cases hs; cases h; cases h'; exact .str _
  · intro m t' n n' w w' h h' hs
    cases hs
    cases h with | sym h => cases h' with | sym h' => rw [hi _ _ _ h h']; exact .sym _
  · intro m t' n n' w w' h h' hs
    cases hs
    cases h with | kw h => cases h' with | kw h' => rw [hi _ _ _ h h']; exact .sym _
  · intro xs ih t' n n' w w' h h' hs
    cases hs with
    | list hs =>
      cases h with | list h => cases h' with | list h' =>
      refine .list (sameList_iff.mpr ((readsList_iff.mp h).flip.map2 (tsameList_iff.mp hs) (readsList_iff.mp h') ?_))
      cases w with | list w => cases w' with | list w' =>
      intro a _ b hb c hc d _ h1 h2 h3
      exact ih b hb c a d (w b hb) (w' c hc) h1 h3 h2
  · intro xs ih t' n n' w w' h h' hs
    cases hs with
    | vec hs =>
      cases h with | vec h => cases h' with | vec h' =>
      refine .vec (sameList_iff.mpr ((readsList_iff.mp h).flip.map2 (tsameList_iff.mp hs) (readsList_iff.mp h') ?_))
      cases w with | vec w => cases w' with | vec w' =>
      intro a _ b hb c hc d _ h1 h2 h3
      exact ih b hb c a d (w b hb) (w' c hc) h1 h3 h2
  · intro es ih t' n n' w w' h h' hs
    cases hs with
    | @map _ es' gs hs hp =>
      cases h with
      | @map _ ns fs h hq =>
        cases h' with
        | @map _ ns' fs' h' hq' =>
          -- line up the written entries of the second with those of the first
          obtain ⟨ms, p1, q1⟩ := F2.perm hp.symm (readsEntries_iff.mp h')
          have q2 : F2 (fun e f => Same e.1 f.1 ∧ Same e.2 f.2) ns ms := by
            refine (readsEntries_iff.mp h).flip.map2 (tsameEntries_iff.mp hs) q1 ?_
            cases w with | map w1 w2 _ => cases w' with | map w1' w2' _ =>
            intro a _ b hb c hc d _ h1 h2 h3
            have hc' := hp.subset hc
            exact ⟨(ih b hb).1 c.1 a.1 d.1 (w1 b hb) (w1' c hc') h1.1 h3.1 h2.1, (ih b hb).2 c.2 a.2 d.2 (w2 b hb) (w2' c hc') h1.2 h3.2 h2.2⟩
          obtain ⟨ms', p3, q3⟩ := F2.perm hq q2
          exact .map (sameEntries_iff.mpr q3) (p3.symm.trans (p1.symm.trans hq'))

/-- What occurs in a node read from a tree was read from something that occurs in the tree. -/
theorem sub_reads {L : Lib} {tab : SymTab} {m n : Node} (h : Sub m n) : ∀ t, Reads tab (asRead L) t n → ∃ u, TSub u t ∧ Reads tab (asRead L) u m := by
  induction h with
  | refl => intro t ht; exact ⟨t, .refl t, ht⟩
  | list hx _ ih =>
    intro t ht
    cases ht with
    | real ht => obtain ⟨_, _, _, _, _, ht⟩ := ht; cases ht
    | list ht =>
      obtain ⟨u, hu, hr⟩ := (readsList_iff.mp ht).right _ hx
      obtain ⟨w, h1, h2⟩ := ih u hr
      exact ⟨w, .list hu h1, h2⟩
  | vec hx _ ih =>
    intro t ht
    cases ht with
    | real ht => obtain ⟨_, _, _, _, _, ht⟩ := ht; cases ht
    | vec ht =>
      obtain ⟨u, hu, hr⟩ := (readsList_iff.mp ht).right _ hx
      obtain ⟨w, h1, h2⟩ := ih u hr
      exact ⟨w, .vec hu h1, h2⟩
  | key hx _ ih =>
    intro t ht
    cases ht with
    | real ht => obtain ⟨_, _, _, _, _, ht⟩ := ht; cases ht
    | map ht hp =>
      obtain ⟨u, hu, hr⟩ := (readsEntries_iff.mp ht).right _ (hp.symm.subset hx)
      obtain ⟨w, h1, h2⟩ := ih u.1 hr.1
      exact ⟨w, .key hu h1, h2⟩
  | val hx _ ih =>
    intro t ht
    cases ht with
    | real ht => obtain ⟨_, _, _, _, _, ht⟩ := ht; cases ht
    | map ht hp =>
      obtain ⟨u, hu, hr⟩ := (readsEntries_iff.mp ht).right _ (hp.symm.subset hx)
      obtain ⟨w, h1, h2⟩ := ih u.2 hr.2
      exact ⟨w, .val hu h1, h2⟩

theorem reads_nanFree {L : Lib} {tab : SymTab} {t n} (h : Reads tab (asRead L) t n) (hr : NoNaNs L.arith t) : NaNFree n := by
  intro v hv
  obtain ⟨u, hs, hu⟩ := sub_reads hv t h
  cases hu with | real hu =>
  obtain ⟨_, _, _, _, ht, he⟩ := hu
  injection he with he
  rw [he]; exact hr _ _ _ _ _ hs ht

theorem reads_smallKeys {L : Lib} {tab : SymTab} {t n} (h : Reads tab (asRead L) t n) (hk : PlainKeys t) : SmallKeys n := by
  intro es e hs he fs hf
  obtain ⟨u, hu, hr⟩ := sub_reads hs t h
  cases hr with
  | real hr => obtain ⟨_, _, _, _, _, hr⟩ := hr; cases hr
  | map hr hp =>
    obtain ⟨w, hw, hwr⟩ := (readsEntries_iff.mp hr).right _ (hp.symm.subset he)
    obtain ⟨x, hx, hxr⟩ := sub_reads hf w.1 hwr.1
    cases hxr with
    | real hxr => obtain ⟨_, _, _, _, _, hxr⟩ := hxr; cases hxr
    | map hxr hp' =>
      rw [← hp'.length_eq, ← (readsEntries_iff.mp hxr).length]
      exact hk _ _ _ hu hw hx

theorem string_inj {names : List (List Byte)} (hd : names.Nodup) (hl : names.length < 2^64) (i j : U64) (x : List Byte)
    (hi : (tabOf names).string i = .ok x) (hj : (tabOf names).string j = .ok x) : i = j := by
  rw [string_tabOf hl] at hi hj
  have h1 := (List.getElem?_eq_some_iff.mp hi).1
  have : i.toNat = j.toNat := (List.getElem?_inj h1 hd).mp (by rw [hi, hj])
  exact BitVec.eq_of_toNat_eq this

/-- Reading trees, written in any layout, with a table that has names in it. -/
theorem read_layout {L : Lib} (hL : Lawful L) {names : List (List Byte)} (hd : names.Nodup) {ts : List Tree}
    (hw : ∀ t ∈ ts, Writable L.arith t) (hlen : names.length + (wordsList ts).length < 2^64)
    {s rest : List Byte} {ls : List (Rule × List Byte)} (h : Chunks s ls rest)
    (hs : (significant ls).map (·.2) = wordsList ts) :
    ∃ d names', (∀ fuel, 2 * (wordsList ts).length + 1 ≤ fuel → parse L fuel (tabOf names) s = .ok d) ∧
      d.errors = [] ∧ d.tab = tabOf names' ∧ names'.Nodup ∧ (∃ m, names' = names ++ m) ∧
      names'.length ≤ names.length + (wordsList ts).length ∧
      ReadsList (tabOf names') (asRead L) ts d.nodes ∧ ∀ n ∈ d.nodes, Built L n := by
  have hwords : (kindsList L ts).map (·.2) = wordsList ts := kindsList_words (fun x _ => kinds_words x)
  have hkl : (kindsList L ts).length = (wordsList ts).length := by rw [← hwords, List.length_map]
  obtain ⟨ls0, hls, htoks⟩ := lexemes_spaced (L := L) (kindsList L ts)
    (kindsList_word (fun x hx => kinds_word L x (hw x hx)))
  rw [hwords] at hls
  change Lexemes (textOf ts) ls0 [] at hls
  obtain ⟨toks', ht, hk⟩ := htoks 0
  have hlex : lex L (textOf ts) = .ok (toks', endOf (steps (Lex.start (textOf ts)) ls0)) := by
    rw [lex_spec L hls, ht]; rfl
  have htl : toks'.length = (wordsList ts).length := by rw [← hkl, ← hk, List.length_map]
  have hsig : (significant ls0).map (·.2) = wordsList ts := by
    rw [← Layout.toks_texts ht, ← hwords, ← hk, List.map_map]; rfl
  have hc0 := lexemes_iff.mp hls
  have hsame : significant ls0 = significant ls :=
    Layout.same_kinds (fun x hx => Layout.chunks_preferred hc0 x ((List.mem_filter.mp hx).1))
      (fun x hx => Layout.chunks_preferred h x ((List.mem_filter.mp hx).1)) (by rw [hsig, hs])
  obtain ⟨n', ns, h1, h2, h3, h4⟩ := top_ok ts (fun t ht => parse_ok hL t (hw t ht)) toks'
    (endOf (steps (Lex.start (textOf ts)) ls0)).pos names (2 * (wordsList ts).length + 1) [] hk hd (by omega) (by omega)
  have hp : parse L (2 * (wordsList ts).length + 1) (tabOf names) (textOf ts) =
      .ok ⟨ns, [], (endOf (steps (Lex.start (textOf ts)) ls0)).breaks, tabOf n'⟩ := by
    unfold parse
    rw [hlex]
    simp only [Outcome.ok_bind, h1]; rfl
  have := Layout.C122_same_tokens L (2 * (wordsList ts).length + 1) (tabOf names) (textOf ts) s [] rest ls0 ls hc0 h hsame
  rw [hp] at this
  cases hq : parse L (2 * (wordsList ts).length + 1) (tabOf names) s with
  | ok d' =>
    rw [hq] at this
    obtain ⟨a, b, c⟩ := this
    dsimp only at a b c
    refine ⟨d', n', fun fuel hf => parse_mono hq hf, ?_, b.symm, h2.nodup, h2.ext, by have := h2.len; omega, ?_, ?_⟩
    · generalize d'.errors = es at c
      cases c; rfl
    · rw [← a]; exact h3
    · rw [← a]; exact h4
  | throw => rw [hq] at this; exact this.elim
  | trap => rw [hq] at this; exact this.elim
  | ub => rw [hq] at this; exact this.elim
  | fuel => rw [hq] at this; exact this.elim

end Ab.Edn
