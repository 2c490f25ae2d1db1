import Verif.Proof.EdnTree2
/-! The parser on the tokens of a written tree. -/
namespace Ab.Edn

open Spec Re

/-- What parsing the tokens `a` of something gives: it consumes them, logs nothing, extends the table. -/
structure Ext (names names' : List (List Byte)) (a : List Token) : Prop where
  nodup : names'.Nodup
  ext : ∃ m, names' = names ++ m
  len : names'.length ≤ names.length + a.length

theorem Ext.refl {names : List (List Byte)} (h : names.Nodup) (a : List Token) : Ext names names a :=
  ⟨h, ⟨[], by simp⟩, by omega⟩

theorem Ext.trans {n1 n2 n3 : List (List Byte)} {a b : List Token} (h1 : Ext n1 n2 a) (h2 : Ext n2 n3 b) :
    Ext n1 n3 (a ++ b) := by
  obtain ⟨m1, rfl⟩ := h1.ext
  obtain ⟨m2, rfl⟩ := h2.ext
  refine ⟨h2.nodup, ⟨m1 ++ m2, by simp⟩, ?_⟩
  have := h1.len; have := h2.len; simp at *; omega

theorem Ext.weaken {n1 n2 : List (List Byte)} {a b : List Token} (h : Ext n1 n2 a) (hl : a.length ≤ b.length) :
    Ext n1 n2 b := ⟨h.nodup, h.ext, by have := h.len; omega⟩

theorem Ext.reads {n1 n2 : List (List Byte)} {a : List Token} (h : Ext n1 n2 a) (hl : n2.length < 2^64) {L : Lib} {t n}
    (hr : Reads (tabOf n1) (asRead L) t n) : Reads (tabOf n2) (asRead L) t n := by
  obtain ⟨m, rfl⟩ := h.ext
  exact reads_mono (fun i x hx => string_mono hl i x hx) t n hr

/-- Parsing one tree. -/
def ParseOk (L : Lib) (t : Tree) : Prop :=
  ∀ (a b : List Token) (e : Nat) (log : List Err) (names : List (List Byte)) (fuel : Nat),
    a.map kt = kinds L t → names.Nodup → names.length + a.length < 2^64 → 2 * a.length ≤ fuel →
    ∃ names' n, parseNode L fuel ⟨a ++ b, e, tabOf names, log⟩ = .ok (⟨b, e, tabOf names', log⟩, some n) ∧
      Ext names names' a ∧ Reads (tabOf names') (asRead L) t n ∧ Built L n

/-- The first token of a tree is no closer. -/
theorem head_open {L : Lib} {t : Tree} {a : List Token} (h : a.map kt = kinds L t) :
    ∃ x a', a = x :: a' ∧ isCloser x.kind = false := by
  obtain ⟨k, w, r, hk, hc⟩ := kinds_head L t
  rw [hk] at h
  cases a with
  | nil => cases h
  | cons x a' =>
    injection h with h1 h2
    exact ⟨x, a', rfl, by rw [show x.kind = k from congrArg Prod.fst h1]; exact hc⟩

theorem map_append_split {a : List Token} {p q : List (Kind × List Byte)} (h : a.map kt = p ++ q) :
    ∃ a1 a2, a = a1 ++ a2 ∧ a1.map kt = p ∧ a2.map kt = q := by
  refine ⟨a.take p.length, a.drop p.length, (List.take_append_drop _ _).symm, ?_, ?_⟩
  · rw [List.map_take, h, List.take_left]
  · rw [List.map_drop, h, List.drop_left]

theorem seq_ok {L : Lib} (isList : Bool) : ∀ (xs : List Tree), (∀ x ∈ xs, ParseOk L x) →
    ∀ (a b : List Token) (c : Token) (e : Nat) (log : List Err) (names : List (List Byte)) (fuel : Nat) (acc : List Node),
    a.map kt = kindsList L xs → c.kind = (if isList then Kind.rparen else Kind.rbracket) → names.Nodup →
    names.length + a.length < 2^64 → 2 * a.length + 1 ≤ fuel →
    ∃ names' ns, parseSeq L fuel isList ⟨a ++ c :: b, e, tabOf names, log⟩ acc =
        .ok (⟨b, e, tabOf names', log⟩, acc ++ ns) ∧
      Ext names names' a ∧ ReadsList (tabOf names') (asRead L) xs ns ∧ ∀ n ∈ ns, Built L n := by
  intro xs
  induction xs with
  | nil =>
    intro _ a b c e log names fuel acc ha hc hd hl hf
    have : a = [] := by simpa [kindsList] using ha
    subst this
    obtain ⟨fuel, rfl⟩ : ∃ f, fuel = f + 1 := ⟨fuel - 1, by omega⟩
    refine ⟨names, [], ?_, Ext.refl hd _, .nil, by simp⟩
    have hk : PS.kind ⟨[] ++ c :: b, e, tabOf names, log⟩ = some c.kind := rfl
    rw [parseSeq, hk, hc]
    cases isList <;> simp <;> rfl
  | cons x xs ih =>
    intro hx a b c e log names fuel acc ha hc hd hl hf
    obtain ⟨fuel, rfl⟩ : ∃ f, fuel = f + 1 := ⟨fuel - 1, by omega⟩
    simp only [kindsList] at ha
    obtain ⟨a1, a2, rfl, h1, h2⟩ := map_append_split ha
    simp only [List.length_append] at hl hf
    obtain ⟨y, a1', rfl, hy⟩ := head_open h1
    obtain ⟨n1, n, e1, e2, e3, e4⟩ := hx x (by simp) (y :: a1') (a2 ++ c :: b) e log names fuel h1 hd (by omega) (by omega)
    have hlen := e2.len
    obtain ⟨n2, ns, e5, e6, e7, e8⟩ := ih (fun z hz => hx z (by simp [hz])) a2 b c e log n1 fuel (acc ++ [n]) h2 hc e2.nodup
      (by omega) (by simp at hf ⊢; omega)
    refine ⟨n2, n :: ns, ?_, e2.trans e6, .cons (e6.reads (by have := e6.len; omega) e3) e7, ?_⟩
    · have hk : PS.kind ⟨y :: a1' ++ a2 ++ c :: b, e, tabOf names, log⟩ = some y.kind := rfl
      rw [parseSeq, hk]
      have e1' : parseNode L fuel ⟨y :: a1' ++ a2 ++ c :: b, e, tabOf names, log⟩ =
          .ok (⟨a2 ++ c :: b, e, tabOf n1, log⟩, some n) := by
        rw [List.append_assoc]; exact e1
      rw [e1']
      have e5' : parseSeq L fuel isList ⟨a2 ++ c :: b, e, tabOf n1, log⟩ (acc ++ [n]) =
          .ok (⟨b, e, tabOf n2, log⟩, acc ++ n :: ns) := by rw [e5]; simp
      simp only [Outcome.ok_bind, e5']
      cases hyk : y.kind <;> rw [hyk] at hy <;> first | rfl | cases hy
    · intro m hm
      rcases List.mem_cons.mp hm with hm | hm
      · subst hm; exact e4
      · exact e8 m hm

/-- The entries read so far. -/
structure Filled (L : Lib) (names : List (List Byte)) (dones : List (Tree × Tree)) (fs : List Entry) : Prop where
  reads : ∃ gs, ReadsEntries (tabOf names) (asRead L) dones gs ∧ gs.Perm fs
  built : Built L (.map fs)
  bk : ∀ f ∈ fs, Built L f.1

theorem readsEntries_snoc {tab kwAs} {es : List (Tree × Tree)} {gs : List Entry} {k v n m}
    (h : ReadsEntries tab kwAs es gs) (h1 : Reads tab kwAs k n) (h2 : Reads tab kwAs v m) :
    ReadsEntries tab kwAs (es ++ [(k, v)]) (gs ++ [(n, m)]) := by
  rw [readsEntries_iff] at h ⊢
  induction h with
  | nil => exact .cons ⟨h1, h2⟩ .nil
  | cons a _ ih => exact .cons a ih

theorem map_ok {L : Lib} (hL : Lawful L) : ∀ (es : List (Tree × Tree)),
    (∀ e ∈ es, (ParseOk L e.1 ∧ ParseOk L e.2) ∧ Writable L.arith e.1 ∧ Writable L.arith e.2) →
    ∀ (dones : List (Tree × Tree)) (a b : List Token) (c : Token) (e : Nat) (log : List Err) (names : List (List Byte))
      (fuel : Nat) (fs : List Entry),
    a.map kt = kindsEntries L es → c.kind = .rbrace → names.Nodup → names.length + a.length < 2^64 →
    2 * a.length + 1 ≤ fuel → (∀ d ∈ dones, Writable L.arith d.1) → (dones ++ es).Pairwise (fun e f => ¬ TSame L.arith e.1 f.1) →
    Filled L names dones fs →
    ∃ names' fs', parseMap L fuel ⟨a ++ c :: b, e, tabOf names, log⟩ fs = .ok (⟨b, e, tabOf names', log⟩, fs') ∧
      Ext names names' a ∧ Filled L names' (dones ++ es) fs' := by
  intro es
  induction es with
  | nil =>
    intro _ dones a b c e log names fuel fs ha hc hd hl hf _ _ hfill
    have : a = [] := by simpa [kindsEntries] using ha
    subst this
    obtain ⟨fuel, rfl⟩ : ∃ f, fuel = f + 1 := ⟨fuel - 1, by omega⟩
    refine ⟨names, fs, ?_, Ext.refl hd _, by simpa using hfill⟩
    have hk : PS.kind ⟨[] ++ c :: b, e, tabOf names, log⟩ = some c.kind := rfl
    rw [parseMap, hk, hc]; rfl
  | cons x es ih =>
    intro hx dones a b c e log names fuel fs ha hc hd hl hf hw hpair hfill
    obtain ⟨fuel, rfl⟩ : ∃ f, fuel = f + 1 := ⟨fuel - 1, by omega⟩
    obtain ⟨k, v⟩ := x
    simp only [kindsEntries, kindsEntry] at ha
    obtain ⟨a12, a3, rfl, h12, h3⟩ := map_append_split ha
    obtain ⟨a1, a2, rfl, h1, h2⟩ := map_append_split h12
    simp only [List.length_append] at hl hf
    obtain ⟨⟨pk, pv⟩, wk, wv⟩ := hx (k, v) (by simp)
    simp only at pk pv wk wv
    obtain ⟨y, a1', rfl, hy⟩ := head_open h1
    obtain ⟨z, a2', rfl, hz⟩ := head_open h2
    simp only [List.length_cons] at hl hf
    obtain ⟨n1, nk, e1, e2, e3, e4⟩ := pk (y :: a1') (z :: a2' ++ a3 ++ c :: b) e log names fuel h1 hd
      (by simp; omega) (by simp; omega)
    have hl1 := e2.len
    simp only [List.length_cons] at hl1
    obtain ⟨n2, nv, e5, e6, e7, e8⟩ := pv (z :: a2') (a3 ++ c :: b) e log n1 fuel h2 e2.nodup (by simp; omega) (by simp; omega)
    have hl2 := e6.len
    simp only [List.length_cons] at hl2
    have hkr : Reads (tabOf n2) (asRead L) k nk := e6.reads (by omega) e3
    have ext12 := e2.trans e6
    obtain ⟨gs, hg1, hg2⟩ := hfill.reads
    have hg1' : ReadsEntries (tabOf n2) (asRead L) dones gs := by
      rw [readsEntries_iff] at hg1 ⊢
      exact hg1.mono (fun a _ b _ h => ⟨ext12.reads (by omega) h.1, ext12.reads (by omega) h.2⟩)
    -- the key is new
    have hnew : findKey L fs nk = none := by
      unfold findKey
      rw [List.find?_eq_none]
      intro f hfm hcon
      simp only [Bool.and_eq_true] at hcon
      have hfg : f ∈ gs := hg2.symm.subset hfm
      obtain ⟨d, hdm, hdr⟩ := (readsEntries_iff.mp hg1').right f hfg
      have hbf := hfill.bk f hfm
      have hsame : Same f.1 nk := by
        have hq := (eqv L nk).symm f.1 (built_wf hL e4) (built_wf hL hbf) hcon.2
        exact eq_same f.1 nk (built_wf hL hbf) (built_wf hL e4) hq
      have hts := reads_same d.1 k f.1 nk (hw d hdm) wk hdr.1 hkr hsame
      have := (List.pairwise_append.mp hpair).2.2 d hdm (k, v) (by simp)
      exact this hts
    obtain ⟨hh, hhash⟩ : Hashable L nk := by
      obtain ⟨s', x, ho, hok⟩ | ho | ⟨ho, -⟩ := (good_all hL fuel).1 ⟨y :: a1' ++ (z :: a2' ++ a3 ++ c :: b), e, tabOf names, log⟩
      · rw [e1] at ho
        injection ho with ho; injection ho with ho1 ho2
        exact hok.hash nk ho2.symm
      · rw [e1] at ho; cases ho
      · rw [e1] at ho; cases ho
    have hins : insertEntry L fs (nk, nv) = L.place fs (nk, nv) := by
      unfold insertEntry; rw [hnew]
    have hperm := hL.place_perm fs (nk, nv)
    have hfill' : Filled L n2 (dones ++ [(k, v)]) (insertEntry L fs (nk, nv)) := by
      refine ⟨⟨gs ++ [(nk, nv)], readsEntries_snoc hg1' hkr e7, ?_⟩, .insert hfill.built e4 e8 hhash, ?_⟩
      · rw [hins]
        exact ((List.perm_append_singleton _ _).trans (hg2.cons _)).trans hperm.symm
      · intro f hf
        rw [hins] at hf
        rcases List.mem_cons.mp (hperm.subset hf) with h | h
        · subst h; exact e4
        · exact hfill.bk f h
    obtain ⟨n3, fs', e9, e10, e11⟩ := ih (fun q hq => hx q (by simp [hq])) (dones ++ [(k, v)]) a3 b c e log n2 fuel
      (insertEntry L fs (nk, nv)) h3 hc e6.nodup (by omega) (by omega)
      (by
        intro d hd
        rcases List.mem_append.mp hd with hd | hd
        · exact hw d hd
        · simp at hd; subst hd; exact wk)
      (by simpa using hpair) hfill'
    refine ⟨n3, fs', ?_, ext12.trans e10, by simpa using e11⟩
    have hk : PS.kind ⟨y :: a1' ++ (z :: a2') ++ a3 ++ c :: b, e, tabOf names, log⟩ = some y.kind := rfl
    have e1' : parseNode L fuel ⟨y :: a1' ++ (z :: a2') ++ a3 ++ c :: b, e, tabOf names, log⟩ =
        .ok (⟨z :: a2' ++ a3 ++ c :: b, e, tabOf n1, log⟩, some nk) := by
      have hre : y :: a1' ++ (z :: a2') ++ a3 ++ c :: b = y :: a1' ++ (z :: a2' ++ a3 ++ c :: b) := by simp
      rw [hre]; exact e1
    have hk2 : PS.kind ⟨z :: a2' ++ a3 ++ c :: b, e, tabOf n1, log⟩ = some z.kind := rfl
    have e5' : parseNode L fuel ⟨z :: a2' ++ a3 ++ c :: b, e, tabOf n1, log⟩ =
        .ok (⟨a3 ++ c :: b, e, tabOf n2, log⟩, some nv) := by
      rw [List.append_assoc]; exact e5
    rw [parseMap, hk, e1']
    simp only [Outcome.ok_bind, hk2, e5', hhash, hnew, e9]
    cases hyk : y.kind <;> rw [hyk] at hy <;> first | (cases hy; done) | skip
    all_goals
      simp only
      cases hzk : z.kind <;> rw [hzk] at hz <;> first | rfl | cases hz

theorem parse_ok {L : Lib} (hL : Lawful L) : ∀ t, Writable L.arith t → ParseOk L t := by
  have atom : ∀ (k : Kind) (w : List Byte) (n : Node) (t : Tree), kinds L t = [(k, w)] → (∀ tab, Reads tab (asRead L) t n) →
      Built L n → (∀ fuel x b e tab log, x.kind = k → x.text = w → parseNode L (fuel + 1) ⟨x :: b, e, tab, log⟩ = .ok (⟨b, e, tab, log⟩, some n)) →
      ParseOk L t := by
    intro k w n t hk hr hb hp a b e log names fuel ha hd hl hf
    rw [hk] at ha
    obtain ⟨x, rfl, hx⟩ : ∃ x, a = [x] ∧ kt x = (k, w) := by
      cases a with
      | nil => cases ha
      | cons x a => cases a with
        | nil => injection ha with h _; exact ⟨x, rfl, h⟩
        | cons y a => cases ha
    obtain ⟨fuel, rfl⟩ : ∃ f, fuel = f + 1 := ⟨fuel - 1, by simp at hf; omega⟩
    exact ⟨names, n, hp fuel x b e _ log (congrArg Prod.fst hx) (congrArg Prod.snd hx), Ext.refl hd _, hr _, hb⟩
  have symlike : ∀ (k : Kind) (w : List Byte) (t : Tree), kinds L t = [(k, w)] →
      (∀ tab i, tab.string i = .ok w → Reads tab (asRead L) t (.sym i)) → (k = .symbol ∨ k = .keyword) → ParseOk L t := by
    intro k w t hk hr hkk a b e log names fuel ha hd hl hf
    rw [hk] at ha
    obtain ⟨x, rfl, hx⟩ : ∃ x, a = [x] ∧ kt x = (k, w) := by
      cases a with
      | nil => cases ha
      | cons x a => cases a with
        | nil => injection ha with h _; exact ⟨x, rfl, h⟩
        | cons y a => cases ha
    obtain ⟨fuel, rfl⟩ : ∃ f, fuel = f + 1 := ⟨fuel - 1, by simp at hf; omega⟩
    obtain ⟨m, i, h1, h2, h3, h4⟩ := intern_spec hd (by simpa using hl) w
    have hxk : x.kind = k := congrArg Prod.fst hx
    have hxw : x.text = w := congrArg Prod.snd hx
    refine ⟨names ++ m, .sym i, ?_, ⟨h2, ⟨m, rfl⟩, by simp; omega⟩, hr _ _ h4, .sym i⟩
    show parseNode L (fuel + 1) ⟨x :: b, e, tabOf names, log⟩ = _
    simp only [parseNode, hxk]
    have hps : parseSym ⟨x :: b, e, tabOf names, log⟩ x.text = (⟨b, e, tabOf (names ++ m), log⟩, .sym i) := by
      unfold parseSym
      simp only [hxw, h1]; rfl
    rcases hkk with rfl | rfl <;> simp only [hps]
  have hsplit : ∀ {a : List Token} {o c : Kind × List Byte} {mid}, a.map kt = o :: mid ++ [c] →
      ∃ x a' y, a = x :: a' ++ [y] ∧ kt x = o ∧ a'.map kt = mid ∧ kt y = c := by
    intro a o c mid h
    cases a with
    | nil => cases h
    | cons x a =>
      injection h with h1 h2
      obtain ⟨a1, a2, rfl, h3, h4⟩ := map_append_split h2
      cases a2 with
      | nil => cases h4
      | cons y a2 =>
        injection h4 with h5 h6
        have : a2 = [] := by simpa using h6
        subst this
        exact ⟨x, a1, y, by simp, h1, h3, h5⟩
  apply Tree.ind
  · intro _; exact atom .nil [110, 105, 108] .nil .nil (by simp only [kinds]) (fun _ => .nil) .nil
      (by intro fuel x b e tab log hx _; simp only [parseNode, hx]; rfl)
  · intro v _
    cases v with
    | true => exact atom (.bool true) [116, 114, 117, 101] (.bool true) _ (by simp only [kinds]) (fun _ => .bool _) (.bool _)
                (by intro fuel x b e tab log hx _; simp only [parseNode, hx]; rfl)
    | false => exact atom (.bool false) [102, 97, 108, 115, 101] (.bool false) _ (by simp only [kinds]) (fun _ => .bool _) (.bool _)
                (by intro fuel x b e tab log hx _; simp only [parseNode, hx]; rfl)
  · intro v _; exact atom (.integer (BitVec.ofInt 64 v)) (decimal v) (.int (BitVec.ofInt 64 v)) _ (by simp only [kinds]) (fun _ => .int v) (.int _)
      (by intro fuel x b e tab log hx _; simp only [parseNode, hx]; rfl)
  · intro u w
    cases w with
    | real hr hx =>
      have e := realOf_eq (L := L) hr hx
      exact atom (.real (realOf L u)) u (.real (realOf L u)) _ (by simp only [kinds]) (fun _ => .real ⟨_, _, _, _, hr, by rw [e]⟩) (.real _)
        (by intro fuel x b e tab log hx _; simp only [parseNode, hx]; rfl)
  · intro v _; exact atom .string (quotedText v) ((asRead L).str v) _ (by simp only [kinds]) (fun _ => .str v) (.str _)
      (by intro fuel x b e tab log hx hw; simp only [parseNode, hx, hw]; rfl)
  · intro n _; exact symlike .symbol n _ (by simp only [kinds]) (fun tab i h => .sym h) (Or.inl rfl)
  · intro n _; exact symlike .keyword (58#8 :: n) _ (by simp only [kinds]) (fun tab i h => .kw h) (Or.inr rfl)
  · intro xs ih w a b e log names fuel ha hd hl hf
    cases w with | list w =>
    simp only [kinds] at ha
    obtain ⟨x, a', y, rfl, hx, hm, hy⟩ := hsplit ha
    simp only [List.length_append, List.length_cons, List.length_nil] at hl hf
    obtain ⟨fuel, rfl⟩ : ∃ f, fuel = f + 1 := ⟨fuel - 1, by omega⟩
    obtain ⟨n', ns, e1, e2, e3, e4⟩ := seq_ok true xs (fun z hz => ih z hz (w z hz)) a' b y e log names fuel [] hm
      (congrArg Prod.fst hy) hd (by omega) (by omega)
    refine ⟨n', .list ns, ?_, e2.weaken (by simp; omega), .list e3, .list e4⟩
    have hxk : x.kind = .lparen := congrArg Prod.fst hx
    have : PS.adv ⟨x :: a' ++ [y] ++ b, e, tabOf names, log⟩ = ⟨a' ++ y :: b, e, tabOf names, log⟩ := by
      simp [PS.adv]
    simp only [List.cons_append, parseNode, hxk]
    simp only [List.cons_append] at this
    rw [this, e1]; rfl
  · intro xs ih w a b e log names fuel ha hd hl hf
    cases w with | vec w =>
    simp only [kinds] at ha
    obtain ⟨x, a', y, rfl, hx, hm, hy⟩ := hsplit ha
    simp only [List.length_append, List.length_cons, List.length_nil] at hl hf
    obtain ⟨fuel, rfl⟩ : ∃ f, fuel = f + 1 := ⟨fuel - 1, by omega⟩
    obtain ⟨n', ns, e1, e2, e3, e4⟩ := seq_ok false xs (fun z hz => ih z hz (w z hz)) a' b y e log names fuel [] hm
      (congrArg Prod.fst hy) hd (by omega) (by omega)
    refine ⟨n', .vec ns, ?_, e2.weaken (by simp; omega), .vec e3, .vec e4⟩
    have hxk : x.kind = .lbracket := congrArg Prod.fst hx
    have : PS.adv ⟨x :: a' ++ [y] ++ b, e, tabOf names, log⟩ = ⟨a' ++ y :: b, e, tabOf names, log⟩ := by
      simp [PS.adv]
    simp only [List.cons_append, parseNode, hxk]
    simp only [List.cons_append] at this
    rw [this, e1]; rfl
  · intro es ih w a b e log names fuel ha hd hl hf
    cases w with | map w1 w2 w3 =>
    simp only [kinds] at ha
    obtain ⟨x, a', y, rfl, hx, hm, hy⟩ := hsplit ha
    simp only [List.length_append, List.length_cons, List.length_nil] at hl hf
    obtain ⟨fuel, rfl⟩ : ∃ f, fuel = f + 1 := ⟨fuel - 1, by omega⟩
    obtain ⟨n', fs, e1, e2, e3⟩ := map_ok hL es
      (fun z hz => ⟨⟨(ih z hz).1 (w1 z hz), (ih z hz).2 (w2 z hz)⟩, w1 z hz, w2 z hz⟩) [] a' b y e log names fuel [] hm
      (congrArg Prod.fst hy) hd (by omega) (by omega) (by simp) (by simpa using w3)
      ⟨⟨[], .nil, .refl _⟩, .emptyMap, by simp⟩
    obtain ⟨gs, hg1, hg2⟩ := e3.reads
    refine ⟨n', .map fs, ?_, e2.weaken (by simp; omega), .map (by simpa using hg1) hg2, e3.built⟩
    have hxk : x.kind = .lbrace := congrArg Prod.fst hx
    have : PS.adv ⟨x :: a' ++ [y] ++ b, e, tabOf names, log⟩ = ⟨a' ++ y :: b, e, tabOf names, log⟩ := by
      simp [PS.adv]
    simp only [List.cons_append, parseNode, hxk]
    simp only [List.cons_append] at this
    rw [this, e1]; rfl

theorem top_ok {L : Lib} : ∀ (ts : List Tree), (∀ t ∈ ts, ParseOk L t) →
    ∀ (a : List Token) (e : Nat) (names : List (List Byte)) (fuel : Nat) (acc : List Node),
    a.map kt = kindsList L ts → names.Nodup → names.length + a.length < 2^64 → 2 * a.length + 1 ≤ fuel →
    ∃ names' ns, parseTop L fuel ⟨a, e, tabOf names, []⟩ acc = .ok (⟨[], e, tabOf names', []⟩, acc ++ ns) ∧
      Ext names names' a ∧ ReadsList (tabOf names') (asRead L) ts ns ∧ ∀ n ∈ ns, Built L n := by
  intro ts
  induction ts with
  | nil =>
    intro _ a e names fuel acc ha hd hl hf
    have : a = [] := by simpa [kindsList] using ha
    subst this
    obtain ⟨fuel, rfl⟩ : ∃ f, fuel = f + 1 := ⟨fuel - 1, by omega⟩
    exact ⟨names, [], by simp [parseTop], Ext.refl hd _, .nil, by simp⟩
  | cons x xs ih =>
    intro hx a e names fuel acc ha hd hl hf
    obtain ⟨fuel, rfl⟩ : ∃ f, fuel = f + 1 := ⟨fuel - 1, by omega⟩
    simp only [kindsList] at ha
    obtain ⟨a1, a2, rfl, h1, h2⟩ := map_append_split ha
    simp only [List.length_append] at hl hf
    obtain ⟨y, a1', rfl, hy⟩ := head_open h1
    obtain ⟨n1, n, e1, e2, e3, e4⟩ := hx x (by simp) (y :: a1') a2 e [] names fuel h1 hd (by omega) (by omega)
    have hlen := e2.len
    obtain ⟨n2, ns, e5, e6, e7, e8⟩ := ih (fun z hz => hx z (by simp [hz])) a2 e n1 fuel (acc ++ [n]) h2 e2.nodup
      (by omega) (by simp at hf ⊢; omega)
    refine ⟨n2, n :: ns, ?_, e2.trans e6, .cons (e6.reads (by have := e6.len; omega) e3) e7, ?_⟩
    · have hh : parseTop L (fuel + 1) ⟨y :: a1' ++ a2, e, tabOf names, []⟩ acc =
          (parseNode L fuel ⟨y :: a1' ++ a2, e, tabOf names, []⟩ >>= fun p => match p.2 with
            | some x => parseTop L fuel p.1 (acc ++ [x])
            | none => parseTop L fuel p.1 acc) := rfl
      rw [hh, e1]
      simp only [Outcome.ok_bind, e5]; simp
    · intro m hm
      rcases List.mem_cons.mp hm with hm | hm
      · subst hm; exact e4
      · exact e8 m hm

end Ab.Edn
