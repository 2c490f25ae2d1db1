import Verif.Proof.EdnTree
import Verif.Proof.EdnParse2
import Verif.Proof.EdnNode2
import Verif.Props.Symbols
/-! Parsing the tokens of a written tree. -/
namespace Ab.Edn

open Spec Re

theorem Tree.ind {P : Tree → Prop} (nil : P .nil) (bool : ∀ b, P (.bool b)) (int : ∀ v, P (.int v)) (real : ∀ w, P (.real w))
    (str : ∀ s, P (.str s))
    (sym : ∀ n, P (.sym n)) (kw : ∀ n, P (.kw n)) (list : ∀ xs, (∀ x ∈ xs, P x) → P (.list xs))
    (vec : ∀ xs, (∀ x ∈ xs, P x) → P (.vec xs))
    (map : ∀ es, (∀ e ∈ es, P e.1 ∧ P e.2) → P (.map es)) : ∀ n, P n := by
  have key : ∀ (k : Nat) (n : Tree), sizeOf n < k → P n := by
    intro k
    induction k with
    | zero => intro n h; omega
    | succ k ih =>
      intro n h
      cases n with
      | nil => exact nil
      | bool b => exact bool b
      | int v => exact int v
      | real v => exact real v
      | str v => exact str v
      | sym i => exact sym i
      | kw i => exact kw i
      | list xs =>
        apply list
        intro x hx
        apply ih
        have := List.sizeOf_lt_of_mem hx
        simp at h; omega
      | vec xs =>
        apply vec
        intro x hx
        apply ih
        have := List.sizeOf_lt_of_mem hx
        simp at h; omega
      | map es =>
        apply map
        intro e he
        have h1 := List.sizeOf_lt_of_mem he
        obtain ⟨k', v'⟩ := e
        simp at h h1
        constructor
        · apply ih; simp only; omega
        · apply ih; simp only; omega
  intro n; exact key _ n (Nat.lt_succ_self _)

theorem F2.perm {R : α → β → Prop} {xs xs' : List α} (hp : xs.Perm xs') : ∀ {ys : List β}, F2 R xs ys →
    ∃ ys', ys.Perm ys' ∧ F2 R xs' ys' := by
  induction hp with
  | nil => intro ys h; exact ⟨ys, .refl _, h⟩
  | cons x _ ih =>
    intro ys h
    cases h with
    | cons h1 h2 =>
      obtain ⟨ys', h3, h4⟩ := ih h2
      exact ⟨_, h3.cons _, .cons h1 h4⟩
  | swap x y l =>
    intro ys h
    cases h with
    | cons h1 h2 =>
      cases h2 with
      | cons h2 h3 => exact ⟨_, .swap _ _ _, .cons h2 (.cons h1 h3)⟩
  | trans _ _ ih1 ih2 =>
    intro ys h
    obtain ⟨ys', h1, h2⟩ := ih1 h
    obtain ⟨ys'', h3, h4⟩ := ih2 h2
    exact ⟨ys'', h1.trans h3, h4⟩

theorem F2.flip {R : α → β → Prop} {xs : List α} {ys : List β} (h : F2 R xs ys) : F2 (fun y x => R x y) ys xs := by
  induction h with
  | nil => exact .nil
  | cons h _ ih => exact .cons h ih

theorem tsameList_of {A : Arith U64} {xs ys : List Tree} (h : F2 (TSame A) xs ys) : TSameList A xs ys := by
  induction h with
  | nil => exact .nil
  | cons h _ ih => exact .cons h ih

theorem tsameEntries_of {A : Arith U64} {xs ys : List (Tree × Tree)} (h : F2 (fun e f => TSame A e.1 f.1 ∧ TSame A e.2 f.2) xs ys) :
    TSameEntries A xs ys := by
  induction h with
  | nil => exact .nil
  | @cons x y xs ys h _ ih => obtain ⟨a, b⟩ := x; obtain ⟨c, d⟩ := y; exact .cons h.1 h.2 ih

theorem readsList_iff {tab kwAs} : ∀ {xs : List Tree} {ns : List Node},
    ReadsList tab kwAs xs ns ↔ F2 (Reads tab kwAs) xs ns := by
  intro xs ns
  constructor
  · intro h
    induction xs generalizing ns with
    | nil => cases h; exact .nil
    | cons x xs ih => cases h with | cons h1 h2 => exact .cons h1 (ih h2)
  · intro h
    induction h with
    | nil => exact .nil
    | cons h _ ih => exact .cons h ih

theorem readsEntries_iff {tab kwAs} : ∀ {xs : List (Tree × Tree)} {ns : List (Node × Node)},
    ReadsEntries tab kwAs xs ns ↔ F2 (fun e f => Reads tab kwAs e.1 f.1 ∧ Reads tab kwAs e.2 f.2) xs ns := by
  intro xs ns
  constructor
  · intro h
    induction xs generalizing ns with
    | nil => cases h; exact .nil
    | cons x xs ih => cases h with | cons h1 h2 h3 => exact .cons ⟨h1, h2⟩ (ih h3)
  · intro h
    induction h with
    | nil => exact .nil
    | @cons x y xs ys h _ ih => obtain ⟨a, b⟩ := x; obtain ⟨c, d⟩ := y; exact .cons h.1 h.2 ih

theorem symbol_no_colon {n : List Byte} (h' : SymbolText n) (m : List Byte) : n ≠ 58#8 :: m := by
  have h := symbol_iff.mpr h'
  intro he
  obtain ⟨c, u, hn, hc⟩ := symbol_head h
  rw [hn] at he
  injection he with e _
  exact (symbol_head_plain hc).2.2.2.2.2.2.2.2.2 e

theorem F2.map2 {A : α → β → Prop} {B : β → γ → Prop} {C : γ → δ → Prop} {D : α → δ → Prop}
    {xs ys zs ws} (h1 : F2 A xs ys) (h2 : F2 B ys zs) (h3 : F2 C zs ws)
    (h : ∀ x ∈ xs, ∀ y ∈ ys, ∀ z ∈ zs, ∀ w ∈ ws, A x y → B y z → C z w → D x w) : F2 D xs ws := by
  induction h1 generalizing zs ws with
  | nil => cases h2; cases h3; exact .nil
  | cons a _ ih =>
    cases h2 with
    | cons b h2 =>
      cases h3 with
      | cons c h3 =>
        refine .cons (h _ (by simp) _ (by simp) _ (by simp) _ (by simp) a b c) (ih h2 h3 ?_)
        intro x hx y hy z hz w hw
        exact h x (by simp [hx]) y (by simp [hy]) z (by simp [hz]) w (by simp [hw])

/-- Nodes that are the same data come from trees that are the same data. -/
theorem reads_same {L : Lib} {tab : SymTab} : ∀ t, ∀ t' n n', Writable L.arith t → Writable L.arith t' → Reads tab (asRead L) t n →
    Reads tab (asRead L) t' n' → Same n n' → TSame L.arith t t' := by
  apply Tree.ind
  · intro t' n n' _ w' h h' hs
    cases h; cases hs; rcases h' with _ | _ | _ | ⟨_, _, _, _, _, h'⟩ | _ | _ | _ | _ | _ | _
    · exact .nil
    · cases h'
  · intro b t' n n' _ w' h h' hs
    cases h; cases hs; rcases h' with _ | _ | _ | ⟨_, _, _, _, _, h'⟩ | _ | _ | _ | _ | _ | _
    · exact .bool b
    · cases h'
  · intro v t' n n' w w' h h' hs
    cases h
    generalize hm : BitVec.ofInt 64 v = m at hs
    cases hs
    cases h' with
    | int v' =>
      cases w with | int hv => cases w' with | int hv' =>
      have h1 := congrArg BitVec.toInt hm
      rw [BitVec.toInt_ofInt, BitVec.toInt_ofInt, Int.bmod_def, Int.bmod_def] at h1
      have : v = v' := by omega
      subst this; exact .int v
    | real h' => obtain ⟨_, _, _, _, _, h'⟩ := h'; cases h'
  · intro w t' n n' _ _ h h' hs
    cases h with
    | real h =>
      obtain ⟨_, _, _, _, hr, rfl⟩ := h
      generalize hm : Node.real _ = m at hs
      cases h' with
      | real h' =>
        obtain ⟨_, _, _, _, hr', rfl⟩ := h'
        subst hm
        cases hs with | real hs => exact .real ⟨_, _, _, _, _, _, _, _, hr, hr', hs⟩
      | _ => subst hm; cases hs
  · intro s t' n n' _ _ h h' hs
    cases h
    generalize hm : (asRead L).str s = m at hs
    cases h' with
    | str s' =>
      rw [← hm] at hs
      have : s = s' := by
        have key : ∀ a b : List Byte, Same (.str a) (.str b) → a = b := fun a b h => by cases h; rfl
        have := key _ _ hs
        exact quoted_inj this
      subst this; exact .str s
    | kw _ => rw [← hm] at hs; cases hs
    | real h' => obtain ⟨_, _, _, _, _, rfl⟩ := h'; rw [← hm] at hs; cases hs
    | _ => rw [← hm] at hs; cases hs
  · intro m t' n n' w w' h h' hs
    cases h with
    | sym hi =>
      cases hs
      cases h' with
      | sym hi' => rw [hi] at hi'; injection hi' with e; subst e; exact .sym _
      | kw hi' =>
        rw [hi] at hi'; injection hi' with e
        cases w with | sym hw => exact absurd e (symbol_no_colon hw.1 _)
      | real h' => obtain ⟨_, _, _, _, _, h'⟩ := h'; cases h'
  · intro m t' n n' w w' h h' hs
    cases h with
    | kw hi =>
      cases hs
      cases h' with
      | sym hi' =>
        rw [hi] at hi'; injection hi' with e
        cases w' with | sym hw => exact absurd e.symm (symbol_no_colon hw.1 _)
      | kw hi' => rw [hi] at hi'; injection hi' with e; injection e with _ e; subst e; exact .kw _
      | real h' => obtain ⟨_, _, _, _, _, h'⟩ := h'; cases h'
  · intro xs ih t' n n' w w' h h' hs
    cases h with
    | list h =>
      cases hs with
      | list hs =>
        cases h' with
        | real h' => obtain ⟨_, _, _, _, _, h'⟩ := h'; cases h'
        | list h' =>
          cases w with | list w => cases w' with | list w' =>
          refine .list (tsameList_of ((readsList_iff.mp h).map2 (sameList_iff.mp hs) (readsList_iff.mp h').flip ?_))
          intro x hx y _ z _ u hu a b c
          exact ih x hx u y z (w x hx) (w' u hu) a c b
  · intro xs ih t' n n' w w' h h' hs
    cases h with
    | vec h =>
      cases hs with
      | vec hs =>
        cases h' with
        | real h' => obtain ⟨_, _, _, _, _, h'⟩ := h'; cases h'
        | vec h' =>
          cases w with | vec w => cases w' with | vec w' =>
          refine .vec (tsameList_of ((readsList_iff.mp h).map2 (sameList_iff.mp hs) (readsList_iff.mp h').flip ?_))
          intro x hx y _ z _ u hu a b c
          exact ih x hx u y z (w x hx) (w' u hu) a c b
  · intro es ih t' n n' w w' h h' hs
    cases h with
    | @map _ gs fs h hp =>
      cases hs with
      | @map _ fs' hs hse hsp =>
        cases h' with
        | real h' => obtain ⟨_, _, _, _, _, h'⟩ := h'; cases h'
        | @map es' gs' _ h' hp' =>
          cases w with | map w1 w2 _ => cases w' with | map w1' w2' _ =>
          -- fs ~ gs, so the entries of fs' can be lined up with gs
          obtain ⟨hs2, p1, q1⟩ := F2.perm hp.symm (sameEntries_iff.mp hse)
          -- and the entries of es' with those
          have p2 : gs'.Perm hs2 := hp'.trans (hsp.symm.trans p1)
          obtain ⟨es2, p3, q2⟩ := F2.perm p2 (readsEntries_iff.mp h').flip
          refine .map (tsameEntries_of ((readsEntries_iff.mp h).map2 q1 q2 ?_)) p3.symm
          intro x hx y _ z _ u hu a b c
          have hu' : u ∈ es' := p3.symm.subset hu
          exact ⟨(ih x hx).1 u.1 y.1 z.1 (w1 x hx) (w1' u hu') a.1 c.1 b.1,
            (ih x hx).2 u.2 y.2 z.2 (w2 x hx) (w2' u hu') a.2 c.2 b.2⟩

/-- A larger table reads what a smaller one reads. -/
theorem reads_mono {tab tab' : SymTab} {kwAs} (ht : ∀ i x, tab.string i = .ok x → tab'.string i = .ok x) :
    ∀ t n, Reads tab kwAs t n → Reads tab' kwAs t n := by
  apply Tree.ind
  · intro n h; cases h; exact .nil
  · intro b n h; cases h; exact .bool b
  · intro v n h; cases h; exact .int v
  · intro v n h; cases h with | real h => exact .real h
  · intro v n h; cases h; exact .str v
  · intro m n h; cases h with | sym h => exact .sym (ht _ _ h)
  · intro m n h; cases h with | kw h => exact .kw (ht _ _ h)
  · intro xs ih n h
    cases h with
    | list h => exact .list (readsList_iff.mpr ((readsList_iff.mp h).mono (fun x hx y _ => ih x hx y)))
  · intro xs ih n h
    cases h with
    | vec h => exact .vec (readsList_iff.mpr ((readsList_iff.mp h).mono (fun x hx y _ => ih x hx y)))
  · intro es ih n h
    cases h with
    | map h hp =>
      refine .map (readsEntries_iff.mpr ((readsEntries_iff.mp h).mono (fun x hx y _ hh => ?_))) hp
      exact ⟨(ih x hx).1 _ hh.1, (ih x hx).2 _ hh.2⟩

theorem string_tabOf {names : List (List Byte)} (h : names.length < 2^64) (i : U64) (x : List Byte) :
    (tabOf names).string i = .ok x ↔ names[i.toNat]? = some x := by
  unfold SymTab.string
  rw [find_strings names h]
  cases names[i.toNat]? with
  | none => simp
  | some y => simp

theorem string_mono {names m : List (List Byte)} (h : (names ++ m).length < 2^64) (i : U64) (x : List Byte)
    (hx : (tabOf names).string i = .ok x) : (tabOf (names ++ m)).string i = .ok x := by
  have hl : names.length < 2^64 := by simp at h; omega
  rw [string_tabOf hl] at hx
  rw [string_tabOf h]
  have := (List.getElem?_eq_some_iff.mp hx).1
  rw [List.getElem?_append_left this]; exact hx

theorem intern_spec {names : List (List Byte)} (hd : names.Nodup) (hl : names.length + 1 < 2^64) (s : List Byte) :
    ∃ m i, (tabOf names).intern s = (tabOf (names ++ m), i) ∧ (names ++ m).Nodup ∧ m.length ≤ 1 ∧
      (tabOf (names ++ m)).string i = .ok s := by
  by_cases hs : s ∈ names
  · obtain ⟨i, hi⟩ : ∃ i, names.idxOf? s = some i := by
      cases h : names.idxOf? s with
      | none => exact absurd hs (List.idxOf?_eq_none_iff.mp h)
      | some i => exact ⟨i, rfl⟩
    obtain ⟨hlt, he, -⟩ := List.findIdx?_eq_some_iff_getElem.mp hi
    refine ⟨[], BitVec.ofNat 64 i, ?_, by simpa using hd, by simp, ?_⟩
    · rw [List.append_nil]; exact intern_old hi
    · rw [List.append_nil, string_tabOf (by omega), BitVec.toNat_ofNat, Nat.mod_eq_of_lt (by omega)]
      rw [List.getElem?_eq_getElem hlt]; simpa using he
  · refine ⟨[s], BitVec.ofNat 64 names.length, intern_new (by omega) hs, ?_, by simp, ?_⟩
    · have := namesAfter_nodup hd [s]
      simpa [namesAfter, hs] using this
    · rw [string_tabOf (by simp; omega), BitVec.toNat_ofNat, Nat.mod_eq_of_lt (by omega)]
      simp

/-! ### Kinds -/

/-- The number of a real token with the given text. -/
def realOf (L : Lib) (w : List Byte) : U64 :=
  match parseReal L.arith w with | .ok v => v | _ => 0

theorem realOf_eq {L : Lib} {w neg ints frac ex} (hr : RealText w neg ints frac ex) (hx : ex.natAbs < 2^63) :
    realOf L w = realIn L.arith neg ints frac ex := by
  unfold realOf; rw [parseReal_spec L.arith hr, if_pos hx]

mutual
/-- Kinds and texts of the tokens of a tree. -/
def kinds (L : Lib) : Tree → List (Kind × List Byte)
  | .nil => [(.nil, [110, 105, 108])]
  | .bool true => [(.bool true, [116, 114, 117, 101])]
  | .bool false => [(.bool false, [102, 97, 108, 115, 101])]
  | .int v => [(.integer (BitVec.ofInt 64 v), decimal v)]
  | .real w => [(.real (realOf L w), w)]
  | .str s => [(.string, quotedText s)]
  | .sym name => [(.symbol, name)]
  | .kw name => [(.keyword, 58#8 :: name)]
  | .list xs => (.lparen, [40]) :: kindsList L xs ++ [(.rparen, [41])]
  | .vec xs => (.lbracket, [91]) :: kindsList L xs ++ [(.rbracket, [93])]
  | .map es => (.lbrace, [123]) :: kindsEntries L es ++ [(.rbrace, [125])]
def kindsList (L : Lib) : List Tree → List (Kind × List Byte)
  | [] => []
  | x :: xs => kinds L x ++ kindsList L xs
def kindsEntries (L : Lib) : List (Tree × Tree) → List (Kind × List Byte)
  | [] => []
  | e :: es => kindsEntry L e ++ kindsEntries L es
def kindsEntry (L : Lib) : Tree × Tree → List (Kind × List Byte)
  | (k, v) => kinds L k ++ kinds L v
end

theorem kindsList_words {L : Lib} {xs : List Tree} (h : ∀ x ∈ xs, (kinds L x).map (·.2) = words x) :
    (kindsList L xs).map (·.2) = wordsList xs := by
  induction xs with
  | nil => simp [kindsList, wordsList]
  | cons x xs ih =>
    simp only [kindsList, wordsList, List.map_append]
    rw [h x (by simp), ih (fun y hy => h y (by simp [hy]))]

theorem kinds_words {L : Lib} : ∀ t, (kinds L t).map (·.2) = words t := by
  apply Tree.ind
  · simp [kinds, words]
  · intro b; cases b <;> simp [kinds, words]
  · intro v; simp [kinds, words]
  · intro v; simp [kinds, words]
  · intro v; simp [kinds, words]
  · intro v; simp [kinds, words]
  · intro v; simp [kinds, words]
  · intro xs ih; simp [kinds, words, kindsList_words ih]
  · intro xs ih; simp [kinds, words, kindsList_words ih]
  · intro es ih
    have : (kindsEntries L es).map (·.2) = wordsEntries es := by
      induction es with
      | nil => simp [kindsEntries, wordsEntries]
      | cons e es ihe =>
        obtain ⟨k, v⟩ := e
        obtain ⟨h1, h2⟩ := ih (k, v) (by simp)
        simp only [kindsEntries, wordsEntries, kindsEntry, wordsEntry, List.map_append]
        rw [h1, h2, ihe (fun y hy => ih y (by simp [hy]))]
    simp [kinds, words, this]

theorem kindsList_word {L : Lib} {xs : List Tree} (h : ∀ x ∈ xs, ∀ p ∈ kinds L x, Word L p.2 p.1) :
    ∀ p ∈ kindsList L xs, Word L p.2 p.1 := by
  induction xs with
  | nil => intro p hp; simp [kindsList] at hp
  | cons x xs ih =>
    intro p hp
    simp only [kindsList] at hp
    rcases List.mem_append.mp hp with hp | hp
    · exact h x (by simp) p hp
    · exact ih (fun y hy => h y (by simp [hy])) p hp

theorem kinds_word (L : Lib) : ∀ t, Writable L.arith t → ∀ p ∈ kinds L t, Word L p.2 p.1 := by
  apply Tree.ind
  · intro _ p hp; simp [kinds] at hp; subst hp; exact word_nil L
  · intro b _ p hp
    cases b <;> simp [kinds] at hp <;> subst hp
    · exact word_false L
    · exact word_true L
  · intro v w p hp
    cases w with | int hv =>
    simp [kinds] at hp; subst hp; exact word_int L hv
  · intro u w p hp
    cases w with | real hr hx =>
    have e := realOf_eq (L := L) hr hx
    simp only [kinds, List.mem_singleton] at hp; subst hp
    rw [e]; exact word_real L hr hx
  · intro s w p hp
    cases w with | str hs =>
    simp only [kinds, List.mem_singleton] at hp; subst hp; exact word_string L hs
  · intro n w p hp
    cases w with | sym hn =>
    simp [kinds] at hp; subst hp; exact word_symbol L hn
  · intro n w p hp
    cases w with | kw hn =>
    simp [kinds] at hp; subst hp; exact word_keyword L hn
  · intro xs ih w p hp
    cases w with | list w =>
    simp only [kinds, List.cons_append, List.mem_cons, List.mem_append, List.not_mem_nil, or_false] at hp
    rcases hp with hp | hp | hp
    · subst hp; exact word_lparen L
    · exact kindsList_word (fun x hx => ih x hx (w x hx)) p hp
    · subst hp; exact word_rparen L
  · intro xs ih w p hp
    cases w with | vec w =>
    simp only [kinds, List.cons_append, List.mem_cons, List.mem_append, List.not_mem_nil, or_false] at hp
    rcases hp with hp | hp | hp
    · subst hp; exact word_lbracket L
    · exact kindsList_word (fun x hx => ih x hx (w x hx)) p hp
    · subst hp; exact word_rbracket L
  · intro es ih w p hp
    cases w with | map w1 w2 w3 =>
    clear w3
    simp only [kinds, List.cons_append, List.mem_cons, List.mem_append, List.not_mem_nil, or_false] at hp
    rcases hp with hp | hp | hp
    · subst hp; exact word_lbrace L
    · revert hp
      induction es with
      | nil => intro hp; simp [kindsEntries] at hp
      | cons e es ihe =>
        obtain ⟨k, v⟩ := e
        intro hp
        obtain ⟨h1, h2⟩ := ih (k, v) (by simp)
        simp only [kindsEntries, kindsEntry, List.mem_append] at hp
        rcases hp with (hp | hp) | hp
        · exact h1 (w1 _ (by simp)) p hp
        · exact h2 (w2 _ (by simp)) p hp
        · exact ihe (fun y hy => ih y (by simp [hy])) (fun y hy => w1 y (by simp [hy]))
            (fun y hy => w2 y (by simp [hy])) hp
    · subst hp; exact word_rbrace L

theorem kinds_head (L : Lib) (t : Tree) : ∃ k w r, kinds L t = (k, w) :: r ∧ isCloser k = false := by
  cases t with
  | bool b => cases b <;> exact ⟨_, _, _, rfl, rfl⟩
  | list xs => exact ⟨_, _, _, by simp only [kinds, List.cons_append]; rfl, rfl⟩
  | vec xs => exact ⟨_, _, _, by simp only [kinds, List.cons_append]; rfl, rfl⟩
  | map xs => exact ⟨_, _, _, by simp only [kinds, List.cons_append]; rfl, rfl⟩
  | _ => exact ⟨_, _, _, by simp only [kinds]; rfl, rfl⟩

end Ab.Edn
