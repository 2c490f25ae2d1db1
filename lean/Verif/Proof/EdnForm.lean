import Verif.Spec.EdnForm
import Verif.Proof.EdnParse2
/-! The parser on well-formed and ill-formed token sequences. -/
namespace Ab.Edn

open Spec

theorem entriesList_append (xs ys : List Node) : entriesList (xs ++ ys) = entriesList xs + entriesList ys := by
  induction xs with
  | nil => simp [entriesList]
  | cons x xs ih => simp [entriesList, ih, Nat.add_assoc]

theorem entriesMap_perm {es fs : List Entry} (h : es.Perm fs) : entriesMap es = entriesMap fs := by
  induction h with
  | nil => rfl
  | cons e _ ih => simp [entriesMap, ih]
  | swap a b l => simp only [entriesMap]; omega
  | trans _ _ h1 h2 => rw [h1, h2]

/-- The message for a key that is there already. -/
def dupMsg : String := "duplicate key discovered in map"

/-- All errors are about keys that are there already. -/
def Dups (errs : List Err) : Prop := ∀ e ∈ errs, e.msg = dupMsg

theorem Dups.append {a b : List Err} (ha : Dups a) (hb : Dups b) : Dups (a ++ b) := by
  intro e he
  rcases List.mem_append.mp he with h | h
  · exact ha e h
  · exact hb e h

theorem Dups.left {a b : List Err} (h : Dups (a ++ b)) : Dups a := fun e he => h e (List.mem_append_left _ he)
theorem Dups.right {a b : List Err} (h : Dups (a ++ b)) : Dups b := fun e he => h e (List.mem_append_right _ he)

/-- The pairs kept and dropped: `n` pairs were written, `m` are kept. -/
structure Count (m n : Nat) (errs : List Err) : Prop where
  le : m + errs.length ≤ n
  eq : errs = [] → m = n

theorem Count.add {m n m' n' : Nat} {a b : List Err} (h : Count m n a) (h' : Count m' n' b) :
    Count (m + m') (n + n') (a ++ b) := by
  refine ⟨?_, ?_⟩
  · have := h.le; have := h'.le; rw [List.length_append]; omega
  · intro he
    obtain ⟨ha, hb⟩ := List.append_eq_nil_iff.mp he
    rw [h.eq ha, h'.eq hb]

/-- Parsing one datum of `p` pairs. -/
def DatumOk (L : Lib) (ks : List Kind) (p : Nat) : Prop :=
  ∀ (a : List Token) (tab : SymTab) (fuel : Nat),
    a.map (·.kind) = ks → 2 * a.length ≤ fuel →
    ∃ tab' n errs, (∀ (b : List Token) (e : Nat) (log : List Err),
        parseNode L fuel ⟨a ++ b, e, tab, log⟩ = .ok (⟨b, e, tab', log ++ errs⟩, some n)) ∧
      Dups errs ∧ Count (entries n) p errs ∧ Hashable L n

def SeqOk (L : Lib) (ks : List Kind) (p : Nat) : Prop :=
  ∀ (isList : Bool) (a : List Token) (c : Token) (tab : SymTab) (fuel : Nat) (acc : List Node),
    a.map (·.kind) = ks → c.kind = (if isList then Kind.rparen else Kind.rbracket) → 2 * a.length + 1 ≤ fuel →
    ∃ tab' ns errs, (∀ (b : List Token) (e : Nat) (log : List Err),
        parseSeq L fuel isList ⟨a ++ c :: b, e, tab, log⟩ acc = .ok (⟨b, e, tab', log ++ errs⟩, acc ++ ns)) ∧
      Dups errs ∧ Count (entriesList ns) p errs ∧ ∀ n ∈ ns, Hashable L n

def PairsOk (L : Lib) (ks : List Kind) (p : Nat) : Prop :=
  ∀ (a : List Token) (c : Token) (tab : SymTab) (fuel : Nat) (es : List Entry),
    a.map (·.kind) = ks → c.kind = .rbrace → 2 * a.length + 1 ≤ fuel → (∀ e ∈ es, Hashable L e.1 ∧ Hashable L e.2) →
    ∃ tab' fs errs, (∀ (b : List Token) (e : Nat) (log : List Err),
        parseMap L fuel ⟨a ++ c :: b, e, tab, log⟩ es = .ok (⟨b, e, tab', log ++ errs⟩, fs)) ∧
      Dups errs ∧ Count (entriesMap fs) (entriesMap es + p) errs ∧ ∀ e ∈ fs, Hashable L e.1 ∧ Hashable L e.2

theorem kinds_split {a : List Token} {p q : List Kind} (h : a.map (·.kind) = p ++ q) :
    ∃ a1 a2, a = a1 ++ a2 ∧ a1.map (·.kind) = p ∧ a2.map (·.kind) = q := by
  refine ⟨a.take p.length, a.drop p.length, (List.take_append_drop _ _).symm, ?_, ?_⟩
  · rw [List.map_take, h, List.take_left]
  · rw [List.map_drop, h, List.drop_left]

theorem datum_head {ks : List Kind} {p : Nat} (h : IsDatum ks p) : ∃ k r, ks = k :: r ∧ isCloser k = false := by
  cases h with
  | @atom k hk => refine ⟨k, [], rfl, ?_⟩; cases k <;> first | rfl | cases hk
  | list _ => exact ⟨_, _, rfl, rfl⟩
  | vec _ => exact ⟨_, _, rfl, rfl⟩
  | map _ => exact ⟨_, _, rfl, rfl⟩

theorem datum_cons {ks : List Kind} {p : Nat} (h : IsDatum ks p) {a : List Token} (ha : a.map (·.kind) = ks) :
    ∃ x a', a = x :: a' ∧ isCloser x.kind = false := by
  obtain ⟨k, r, rfl, hk⟩ := datum_head h
  cases a with
  | nil => cases ha
  | cons x a' => injection ha with h1 h2; simp only at h1; exact ⟨x, a', rfl, by rw [h1]; exact hk⟩

/-- An atom. -/
theorem atom_datum (L : Lib) {k : Kind} (hk : isBracket k = false) : DatumOk L [k] 0 := by
  intro a tab fuel ha hf
  match a, ha with
  | [t], ha =>
    injection ha with ha _
    simp only at ha
    obtain ⟨fuel, rfl⟩ : ∃ f, fuel = f + 1 := ⟨fuel - 1, by simp at hf; omega⟩
    subst ha
    have hd : Dups [] := by intro e he; cases he
    have hc : Count 0 0 [] := ⟨Nat.le_refl _, fun _ => rfl⟩
    have step : ∀ (tab' : SymTab) (n : Node),
        (∀ (b : List Token) (e : Nat) (log : List Err),
          parseNode L (fuel + 1) ⟨t :: b, e, tab, log⟩ = .ok (⟨b, e, tab', log⟩, some n)) →
        entries n = 0 → Hashable L n →
        ∃ tab' n errs, (∀ (b : List Token) (e : Nat) (log : List Err),
          parseNode L (fuel + 1) ⟨[t] ++ b, e, tab, log⟩ = .ok (⟨b, e, tab', log ++ errs⟩, some n)) ∧
          Dups errs ∧ Count (entries n) 0 errs ∧ Hashable L n := by
      intro tab' n h hn hh
      refine ⟨tab', n, [], fun b e log => ?_, hd, by rw [hn]; exact hc, hh⟩
      rw [List.append_nil]; exact h b e log
    cases hkk : t.kind <;> rw [hkk] at hk <;> first | (cases hk; done) | skip
    case symbol =>
      exact step (tab.intern t.text).1 (.sym (tab.intern t.text).2)
        (fun b e log => by rw [parseNode]; simp only [hkk]; rfl) rfl ⟨_, rfl⟩
    case keyword =>
      exact step (tab.intern t.text).1 (.sym (tab.intern t.text).2)
        (fun b e log => by rw [parseNode]; simp only [hkk]; rfl) rfl ⟨_, rfl⟩
    all_goals
      exact step tab _ (fun b e log => by rw [parseNode]; simp only [hkk]; rfl) rfl ⟨_, rfl⟩

theorem seq_nil_ok (L : Lib) : SeqOk L [] 0 := by
  intro isList a c tab fuel acc ha hc hf
  obtain ⟨fuel, rfl⟩ : ∃ f, fuel = f + 1 := ⟨fuel - 1, by omega⟩
  have : a = [] := by simpa using ha
  subst this
  refine ⟨tab, [], [], fun b e log => ?_, (by intro e he; cases he), ⟨by simp [entriesList], fun _ => by simp [entriesList]⟩, by simp⟩
  have hk : PS.kind ⟨[] ++ c :: b, e, tab, log⟩ = some c.kind := rfl
  rw [parseSeq, hk, hc]
  cases isList <;> simp <;> rfl

theorem seq_cons_ok (L : Lib) {a b : List Kind} {n m : Nat} (hd : IsDatum a n) (h1 : DatumOk L a n) (h2 : SeqOk L b m) :
    SeqOk L (a ++ b) (n + m) := by
  intro isList x c tab fuel acc hx hc hf
  obtain ⟨fuel, rfl⟩ : ∃ f, fuel = f + 1 := ⟨fuel - 1, by omega⟩
  obtain ⟨x1, x2, rfl, hx1, hx2⟩ := kinds_split hx
  obtain ⟨y, x1', rfl, hy⟩ := datum_cons hd hx1
  simp only [List.length_append, List.length_cons] at hf
  obtain ⟨tab1, nd, er1, e1, d1, c1, hh1⟩ := h1 (y :: x1') tab fuel hx1 (by simp; omega)
  obtain ⟨tab2, ns, er2, e2, d2, c2, hh2⟩ := h2 isList x2 c tab1 fuel (acc ++ [nd]) hx2 hc (by omega)
  refine ⟨tab2, nd :: ns, er1 ++ er2, fun r e log => ?_, d1.append d2, ?_, ?_⟩
  · have hk : PS.kind ⟨y :: x1' ++ x2 ++ c :: r, e, tab, log⟩ = some y.kind := rfl
    have e1' : parseNode L fuel ⟨y :: x1' ++ x2 ++ c :: r, e, tab, log⟩ =
        .ok (⟨x2 ++ c :: r, e, tab1, log ++ er1⟩, some nd) := by rw [List.append_assoc]; exact e1 _ _ _
    have e2' : parseSeq L fuel isList ⟨x2 ++ c :: r, e, tab1, log ++ er1⟩ (acc ++ [nd]) =
        .ok (⟨r, e, tab2, log ++ (er1 ++ er2)⟩, acc ++ nd :: ns) := by rw [e2]; simp
    rw [parseSeq, hk, e1']
    simp only [Outcome.ok_bind, e2']
    cases hyk : y.kind <;> rw [hyk] at hy <;> first | rfl | cases hy
  · simp only [entriesList]; exact c1.add c2
  · intro q hq
    rcases List.mem_cons.mp hq with h | h
    · subst h; exact hh1
    · exact hh2 q h

theorem pairs_nil_ok (L : Lib) : PairsOk L [] 0 := by
  intro a c tab fuel es ha hc hf hes
  obtain ⟨fuel, rfl⟩ : ∃ f, fuel = f + 1 := ⟨fuel - 1, by omega⟩
  have : a = [] := by simpa using ha
  subst this
  refine ⟨tab, es, [], fun b e log => ?_, (by intro e he; cases he), ⟨by simp, fun _ => by simp⟩, hes⟩
  have hk : PS.kind ⟨[] ++ c :: b, e, tab, log⟩ = some c.kind := rfl
  rw [parseMap, hk, hc, List.append_nil]; rfl

theorem insert_entries {L : Lib} (hL : Lawful L) {es : List Entry} {k v : Node} (h : findKey L es k = none) :
    entriesMap (insertEntry L es (k, v)) = entriesMap es + (entries k + entries v + 1) := by
  unfold insertEntry
  rw [h]
  simp only
  rw [entriesMap_perm (hL.place_perm es (k, v))]
  simp only [entriesMap, entriesOne]; omega

theorem insert_found {L : Lib} {es : List Entry} {k v : Node} {f : Entry} (h : findKey L es k = some f) :
    insertEntry L es (k, v) = es := by
  unfold insertEntry; rw [h]

theorem err_log (s : PS) (m : String) : ∃ x : Err, x.msg = m ∧ s.err m = { s with log := s.log ++ [x] } := by
  unfold PS.err
  split
  · exact ⟨_, rfl, rfl⟩
  · exact ⟨_, rfl, rfl⟩

/-- An error at the next token does not depend on what comes later. -/
theorem err_here (x : List Token) (c : Token) (m : String) : ∃ er : Err, er.msg = m ∧
    ∀ (r : List Token) (e : Nat) (tab : SymTab) (log : List Err),
      PS.err ⟨x ++ c :: r, e, tab, log⟩ m = ⟨x ++ c :: r, e, tab, log ++ [er]⟩ := by
  cases x with
  | nil => exact ⟨⟨c.lo, c.hi, m⟩, rfl, fun _ _ _ _ => rfl⟩
  | cons t x => exact ⟨⟨t.lo, t.hi, m⟩, rfl, fun _ _ _ _ => rfl⟩

theorem pairs_cons_ok {L : Lib} (hL : Lawful L) {a b c : List Kind} {n m l : Nat} (hd : IsDatum a n) (hd' : IsDatum b m)
    (h1 : DatumOk L a n) (h2 : DatumOk L b m) (h3 : PairsOk L c l) : PairsOk L (a ++ (b ++ c)) (n + m + 1 + l) := by
  intro x cl tab fuel es hx hc hf hes
  obtain ⟨fuel, rfl⟩ : ∃ f, fuel = f + 1 := ⟨fuel - 1, by omega⟩
  obtain ⟨x1, x', rfl, hx1, hx'⟩ := kinds_split hx
  obtain ⟨x2, x3, rfl, hx2, hx3⟩ := kinds_split hx'
  obtain ⟨y, x1', rfl, hy⟩ := datum_cons hd hx1
  obtain ⟨z, x2', rfl, hz⟩ := datum_cons hd' hx2
  simp only [List.length_append, List.length_cons] at hf
  obtain ⟨tab1, nk, er1, e1, d1, c1, hh1⟩ := h1 (y :: x1') tab fuel hx1 (by simp; omega)
  obtain ⟨tab2, nv, er2, e2, d2, c2, hh2⟩ := h2 (z :: x2') tab1 fuel hx2 (by simp; omega)
  have hins := insert_hashable hL hes (e := (nk, nv)) ⟨hh1, hh2⟩
  obtain ⟨hk0, hhash⟩ := hh1
  have e1' : ∀ r e log, parseNode L fuel ⟨y :: x1' ++ (z :: x2' ++ x3) ++ cl :: r, e, tab, log⟩ =
      .ok (⟨z :: x2' ++ (x3 ++ cl :: r), e, tab1, log ++ er1⟩, some nk) := by
    intro r e log
    have : y :: x1' ++ (z :: x2' ++ x3) ++ cl :: r = y :: x1' ++ (z :: x2' ++ (x3 ++ cl :: r)) := by simp
    rw [this]; exact e1 _ _ _
  have step : ∀ (r : List Token) (e : Nat) (log : List Err) (s : PS) (o : Outcome (PS × List Entry)),
      (match findKey L es nk with
        | some _ => PS.err ⟨x3 ++ cl :: r, e, tab2, log ++ er1 ++ er2⟩ dupMsg
        | none => ⟨x3 ++ cl :: r, e, tab2, log ++ er1 ++ er2⟩) = s →
      parseMap L fuel s (insertEntry L es (nk, nv)) = o →
      parseMap L (fuel + 1) ⟨y :: x1' ++ (z :: x2' ++ x3) ++ cl :: r, e, tab, log⟩ es = o := by
    intro r e log s o hs ho
    have hk : PS.kind ⟨y :: x1' ++ (z :: x2' ++ x3) ++ cl :: r, e, tab, log⟩ = some y.kind := rfl
    have hk2 : PS.kind ⟨z :: x2' ++ (x3 ++ cl :: r), e, tab1, log ++ er1⟩ = some z.kind := rfl
    rw [parseMap, hk, e1']
    simp only [Outcome.ok_bind, hk2, e2, hhash]
    subst hs
    subst ho
    unfold dupMsg
    cases hyk : y.kind <;> rw [hyk] at hy <;> first | (cases hy; done) | skip
    all_goals
      simp only
      cases hzk : z.kind <;> rw [hzk] at hz <;> first | rfl | cases hz
  cases hfk : findKey L es nk with
  | none =>
    obtain ⟨tab3, fs, er3, e3, d3, c3, hh3⟩ := h3 x3 cl tab2 fuel (insertEntry L es (nk, nv))
      hx3 hc (by omega) hins
    refine ⟨tab3, fs, er1 ++ er2 ++ er3, fun r e log => ?_, (d1.append d2).append d3, ?_, hh3⟩
    · rw [hfk] at step
      exact step r e log _ _ rfl (by rw [e3]; simp)
    · rw [insert_entries hL hfk] at c3
      refine ⟨?_, ?_⟩
      · have := c1.le; have := c2.le; have := c3.le; simp only [List.length_append]; omega
      · intro he
        obtain ⟨he, h3'⟩ := List.append_eq_nil_iff.mp he
        obtain ⟨h1', h2'⟩ := List.append_eq_nil_iff.mp he
        have := c1.eq h1'; have := c2.eq h2'; have := c3.eq h3'; omega
  | some f =>
    obtain ⟨er, hm, her⟩ := err_here x3 cl dupMsg
    obtain ⟨tab3, fs, er3, e3, d3, c3, hh3⟩ := h3 x3 cl tab2 fuel
      (insertEntry L es (nk, nv)) hx3 hc (by omega) hins
    refine ⟨tab3, fs, er1 ++ er2 ++ ([er] ++ er3), fun r e log => ?_, (d1.append d2).append (Dups.append ?_ d3), ?_, hh3⟩
    · rw [hfk] at step
      exact step r e log _ _ (her _ _ _ _) (by rw [e3]; simp)
    · intro q hq
      rw [List.mem_singleton.mp hq]; exact hm
    · rw [insert_found hfk] at c3
      refine ⟨?_, ?_⟩
      · have := c1.le; have := c2.le; have := c3.le; simp only [List.length_append, List.length_singleton]; omega
      · intro he
        simp at he

theorem coll_ok {L : Lib} {ks : List Kind} {p : Nat} {o c : Kind}
    (h : ∀ (t u : Token) (a : List Token) (tab : SymTab) (fuel : Nat),
      t.kind = o → u.kind = c → a.map (·.kind) = ks → 2 * a.length + 1 ≤ fuel →
      ∃ tab' n errs, (∀ (b : List Token) (e : Nat) (log : List Err),
          parseNode L (fuel + 1) ⟨t :: (a ++ u :: b), e, tab, log⟩ = .ok (⟨b, e, tab', log ++ errs⟩, some n)) ∧
        Dups errs ∧ Count (entries n) p errs ∧ Hashable L n) : DatumOk L (o :: (ks ++ [c])) p := by
  intro a tab fuel ha hf
  cases a with
  | nil => cases ha
  | cons t a =>
    injection ha with h1 h2
    obtain ⟨a1, a2, rfl, h3, h4⟩ := kinds_split h2
    match a2, h4 with
    | [u], h4 =>
      injection h4 with h4 _
      simp only [List.length_cons, List.length_append, List.length_nil] at hf
      obtain ⟨fuel, rfl⟩ : ∃ f, fuel = f + 1 := ⟨fuel - 1, by omega⟩
      obtain ⟨tab', n, errs, hp, rest⟩ := h t u a1 tab fuel h1 h4 h3 (by omega)
      refine ⟨tab', n, errs, fun b e log => ?_, rest⟩
      have : t :: (a1 ++ [u]) ++ b = t :: (a1 ++ u :: b) := by simp
      rw [this]; exact hp _ _ _

mutual
theorem datumOk {L : Lib} (hL : Lawful L) : ∀ {ks : List Kind} {p : Nat}, IsDatum ks p → DatumOk L ks p
  | _, _, .atom hk => atom_datum L hk
  | _, _, .list hs => coll_ok (by
      intro t u a tab fuel ht hu ha hf
      obtain ⟨tab', ns, errs, h1, h2, h3, h4⟩ := seqOk hL hs true a u tab fuel [] ha hu hf
      refine ⟨tab', .list ns, errs, fun b e log => ?_, h2, by simpa only [entries] using h3, hashable_list h4⟩
      rw [parseNode]
      simp only [ht, PS.adv, List.tail_cons]
      rw [h1]; rfl)
  | _, _, .vec hs => coll_ok (by
      intro t u a tab fuel ht hu ha hf
      obtain ⟨tab', ns, errs, h1, h2, h3, h4⟩ := seqOk hL hs false a u tab fuel [] ha hu hf
      refine ⟨tab', .vec ns, errs, fun b e log => ?_, h2, by simpa only [entries] using h3, hashable_vec h4⟩
      rw [parseNode]
      simp only [ht, PS.adv, List.tail_cons]
      rw [h1]; rfl)
  | _, _, .map hs => coll_ok (by
      intro t u a tab fuel ht hu ha hf
      obtain ⟨tab', ns, errs, h1, h2, h3, h4⟩ := pairsOk hL hs a u tab fuel [] ha hu hf (by simp)
      refine ⟨tab', .map ns, errs, fun b e log => ?_, h2, by simpa only [entries, entriesMap, Nat.zero_add] using h3, hashable_map h4⟩
      rw [parseNode]
      simp only [ht, PS.adv, List.tail_cons]
      rw [h1]; rfl)
theorem seqOk {L : Lib} (hL : Lawful L) : ∀ {ks : List Kind} {p : Nat}, IsSeq ks p → SeqOk L ks p
  | _, _, .nil => seq_nil_ok L
  | _, _, .cons h1 h2 => seq_cons_ok L h1 (datumOk hL h1) (seqOk hL h2)
theorem pairsOk {L : Lib} (hL : Lawful L) : ∀ {ks : List Kind} {p : Nat}, IsPairs ks p → PairsOk L ks p
  | _, _, .nil => pairs_nil_ok L
  | _, _, .cons h1 h2 h3 => pairs_cons_ok hL h1 h2 (datumOk hL h1) (datumOk hL h2) (pairsOk hL h3)
end

/-- The data at the beginning of a text are read without regard to what comes after them. -/
theorem topOn {L : Lib} (hL : Lawful L) : ∀ {ks : List Kind} {p : Nat}, IsSeq ks p →
    ∀ (a : List Token) (tab : SymTab) (fuel : Nat), a.map (·.kind) = ks → 2 * a.length + 1 ≤ fuel →
    ∃ tab' ns errs fuel', 1 ≤ fuel' ∧ fuel ≤ fuel' + a.length ∧ (∀ (b : List Token) (e : Nat) (log : List Err) (acc : List Node),
      parseTop L fuel ⟨a ++ b, e, tab, log⟩ acc = parseTop L fuel' ⟨b, e, tab', log ++ errs⟩ (acc ++ ns)) ∧
      Dups errs ∧ Count (entriesList ns) p errs
  | _, _, .nil => by
    intro a tab fuel ha hf
    have : a = [] := by simpa using ha
    subst this
    exact ⟨tab, [], [], fuel, by omega, by simp, fun b e log acc => by simp, (by intro e he; cases he),
      ⟨by simp [entriesList], fun _ => rfl⟩⟩
  | _, _, .cons h1 h2 => by
    intro a tab fuel ha hf
    obtain ⟨fuel, rfl⟩ : ∃ f, fuel = f + 1 := ⟨fuel - 1, by omega⟩
    obtain ⟨x1, x2, rfl, hx1, hx2⟩ := kinds_split ha
    obtain ⟨y, x1', rfl, hy⟩ := datum_cons h1 hx1
    simp only [List.length_append, List.length_cons] at hf
    obtain ⟨tab1, nd, er1, e1, d1, c1, -⟩ := datumOk hL h1 (y :: x1') tab fuel hx1 (by simp; omega)
    obtain ⟨tab2, ns, er2, fuel', q1, q2, e2, d2, c2⟩ := topOn hL h2 x2 tab1 fuel hx2 (by omega)
    refine ⟨tab2, nd :: ns, er1 ++ er2, fuel', q1, by simp only [List.length_append, List.length_cons]; omega, ?_,
      d1.append d2, by simp only [entriesList]; exact c1.add c2⟩
    intro b e log acc
    have e1' := e1 (x2 ++ b) e log
    rw [List.append_assoc]
    simp only [List.cons_append] at e1' ⊢
    rw [parseTop]
    simp only [e1', Outcome.ok_bind, e2]
    simp

theorem topOk {L : Lib} (hL : Lawful L) {ks : List Kind} {p : Nat} (h : IsSeq ks p)
    (a : List Token) (e : Nat) (tab : SymTab) (log : List Err) (fuel : Nat) (acc : List Node)
    (ha : a.map (·.kind) = ks) (hf : 2 * a.length + 1 ≤ fuel) :
    ∃ tab' ns errs, parseTop L fuel ⟨a, e, tab, log⟩ acc = .ok (⟨[], e, tab', log ++ errs⟩, acc ++ ns) ∧
      Dups errs ∧ Count (entriesList ns) p errs := by
  obtain ⟨tab', ns, errs, fuel', h1, -, h2, h3, h4⟩ := topOn hL h a tab fuel ha hf
  refine ⟨tab', ns, errs, ?_, h3, h4⟩
  have := h2 [] e log acc
  rw [List.append_nil] at this
  obtain ⟨f, rfl⟩ : ∃ f, fuel' = f + 1 := ⟨fuel' - 1, by omega⟩
  rw [this, parseTop]

/-! Conversely. -/

/-- What `parseNode` tells when it returns and logs only double keys. -/
def NodeForm (s s' : PS) (r : Option Node) : Prop :=
  ∃ errs, s'.log = s.log ++ errs ∧ (Dups errs → s.toks ≠ [] → r.isSome ∧
    ∃ a p, s.toks = a ++ s'.toks ∧ IsDatum (a.map (·.kind)) p)

def SeqForm (isList : Bool) (s s' : PS) : Prop :=
  ∃ errs, s'.log = s.log ++ errs ∧ (Dups errs → ∃ a c p, s.toks = a ++ c :: s'.toks ∧
    c.kind = (if isList then Kind.rparen else Kind.rbracket) ∧ IsSeq (a.map (·.kind)) p)

def MapForm (s s' : PS) : Prop :=
  ∃ errs, s'.log = s.log ++ errs ∧ (Dups errs → ∃ a c p, s.toks = a ++ c :: s'.toks ∧
    c.kind = .rbrace ∧ IsPairs (a.map (·.kind)) p)

theorem not_dups_cons {m : String} (h : m ≠ dupMsg) {x : Err} (hx : x.msg = m) (l : List Err) : ¬ Dups (x :: l) :=
  fun hd => h (hx ▸ hd x (by simp))

theorem dup_ne1 : "unexepected closing delimiter." ≠ dupMsg := by decide +kernel
theorem dup_ne2 (b : Bool) (k : Option Kind) : seqMsg b k ≠ dupMsg := by
  unfold seqMsg
  split
  · split <;> decide +kernel
  · decide +kernel
  · decide +kernel
theorem dup_ne3 : "Unexpected ')' terminating map" ≠ dupMsg := by decide +kernel
theorem dup_ne4 : "Unexpected ']' terminating vector" ≠ dupMsg := by decide +kernel
theorem dup_ne5 : "Unexpected end of file while parsing map key" ≠ dupMsg := by decide +kernel
theorem dup_ne6 : "failed to parse map key" ≠ dupMsg := by decide +kernel
theorem dup_ne7 : "Unexpected end of file while parsing map value" ≠ dupMsg := by decide +kernel
theorem dup_ne8 : "key not followed by value in map" ≠ dupMsg := by decide +kernel

theorem atom_form {s s' : PS} {t : Token} {ts : List Token} {n : Node} (hs : s.toks = t :: ts) (ht : s'.toks = ts)
    (hl : s'.log = s.log) (hk : isBracket t.kind = false) : NodeForm s s' (some n) :=
  ⟨[], by rw [hl, List.append_nil], fun _ _ => ⟨rfl, [t], 0, by rw [hs, ht]; rfl, .atom hk⟩⟩

/-- An error of another kind settles it. -/
theorem err_form {s s1 s' : PS} {m : String} {es : List Err} (hm : m ≠ dupMsg) (h : s'.log = (s1.err m).log ++ es)
    (h1 : ∃ e1, s1.log = s.log ++ e1) (Q : Prop) : ∃ errs, s'.log = s.log ++ errs ∧ (Dups errs → Q) := by
  obtain ⟨e1, he1⟩ := h1
  obtain ⟨x, hx, hx'⟩ := err_log s1 m
  refine ⟨e1 ++ [x] ++ es, by rw [h, hx']; simp [he1], fun hd => ?_⟩
  exact absurd (hd x (by simp)) (by rw [hx]; exact hm)

theorem form_all (L : Lib) : ∀ (fuel : Nat),
    (∀ s s' r, parseNode L fuel s = .ok (s', r) → NodeForm s s' r) ∧
    (∀ b s acc s' r, parseSeq L fuel b s acc = .ok (s', r) → SeqForm b s s') ∧
    (∀ s es s' r, parseMap L fuel s es = .ok (s', r) → MapForm s s') := by
  intro fuel
  induction fuel with
  | zero =>
    refine ⟨?_, ?_, ?_⟩
    · intro s s' r h; rw [parseNode] at h; cases h
    · intro b s acc s' r h; rw [parseSeq] at h; cases h
    · intro s es s' r h; rw [parseMap] at h; cases h
  | succ fuel ih =>
    obtain ⟨ihn, ihs, ihm⟩ := ih
    refine ⟨?_, ?_, ?_⟩
    · intro s s' r h
      rw [parseNode] at h
      cases hs : s.toks with
      | nil =>
        rw [hs] at h
        injection h with h; injection h with h _; subst h
        exact ⟨[], by simp, fun _ hn => absurd hs hn⟩
      | cons t ts =>
        rw [hs] at h
        simp only at h
        cases hk : t.kind <;> rw [hk] at h <;> simp only at h
        case nil | bool | integer | real | string | symbol | keyword =>
          injection h with h; injection h with h1 h2; subst h1; subst h2
          exact atom_form hs (by simp [parseSym, PS.adv, hs]) rfl (by rw [hk]; rfl)
        case rparen | rbracket | rbrace =>
          injection h with h; injection h with h1 h2; subst h1
          exact ⟨[_], rfl, fun hd => absurd hd (not_dups_cons dup_ne1 rfl _)⟩
        case lparen =>
          obtain ⟨⟨s1, xs⟩, h1, h2⟩ := Outcome.bind_eq_ok.mp h
          injection h2 with h2; injection h2 with h2 h3; subst h2; subst h3
          obtain ⟨errs, hl, hd⟩ := ihs _ _ _ _ _ h1
          refine ⟨errs, hl, fun he _ => ⟨rfl, ?_⟩⟩
          obtain ⟨a, c, p, ha, hc, hq⟩ := hd he
          refine ⟨t :: (a ++ [c]), p, ?_, ?_⟩
          · have : s.adv.toks = ts := by simp [hs]
            rw [this] at ha; rw [hs, ha]; simp
          · have := IsDatum.list hq
            simp only [if_true] at hc
            simpa [hk, hc] using this
        case lbracket =>
          obtain ⟨⟨s1, xs⟩, h1, h2⟩ := Outcome.bind_eq_ok.mp h
          injection h2 with h2; injection h2 with h2 h3; subst h2; subst h3
          obtain ⟨errs, hl, hd⟩ := ihs _ _ _ _ _ h1
          refine ⟨errs, hl, fun he _ => ⟨rfl, ?_⟩⟩
          obtain ⟨a, c, p, ha, hc, hq⟩ := hd he
          refine ⟨t :: (a ++ [c]), p, ?_, ?_⟩
          · have : s.adv.toks = ts := by simp [hs]
            rw [this] at ha; rw [hs, ha]; simp
          · have := IsDatum.vec hq
            simp only [Bool.false_eq_true, if_false] at hc
            simpa [hk, hc] using this
        case lbrace =>
          obtain ⟨⟨s1, xs⟩, h1, h2⟩ := Outcome.bind_eq_ok.mp h
          injection h2 with h2; injection h2 with h2 h3; subst h2; subst h3
          obtain ⟨errs, hl, hd⟩ := ihm _ _ _ _ h1
          refine ⟨errs, hl, fun he _ => ⟨rfl, ?_⟩⟩
          obtain ⟨a, c, p, ha, hc, hq⟩ := hd he
          refine ⟨t :: (a ++ [c]), p, ?_, ?_⟩
          · have : s.adv.toks = ts := by simp [hs]
            rw [this] at ha; rw [hs, ha]; simp
          · have := IsDatum.map hq
            simpa [hk, hc] using this
    · intro b s acc s' r h
      rw [parseSeq] at h
      cases hk : s.kind with
      | none =>
        rw [hk] at h
        injection h with h; injection h with h1 _; subst h1
        exact err_form (dup_ne2 b none) (s1 := s) (es := []) (by simp) ⟨[], by simp⟩ _
      | some k =>
        obtain ⟨t, ts, hs, ht⟩ := kind_some hk
        rw [hk] at h
        -- a datum and the rest
        have next : ∀ s1 (x : Option Node) xs, parseNode L fuel s = .ok (s1, x) → isCloser k = false →
            (parseSeq L fuel b s1 xs = .ok (s', r)) → SeqForm b s s' := by
          intro s1 x xs h1 hc h2
          obtain ⟨e1, hl1, hd1⟩ := ihn _ _ _ h1
          obtain ⟨e2, hl2, hd2⟩ := ihs _ _ _ _ _ h2
          refine ⟨e1 ++ e2, by rw [hl2, hl1, List.append_assoc], fun hd => ?_⟩
          obtain ⟨-, a1, p1, ha1, hq1⟩ := hd1 hd.left (by rw [hs]; simp)
          obtain ⟨a2, c, p2, ha2, hc2, hq2⟩ := hd2 hd.right
          refine ⟨a1 ++ a2, c, p1 + p2, by rw [ha1, ha2, List.append_assoc], hc2, ?_⟩
          rw [List.map_append]; exact .cons hq1 hq2
        have next' : isCloser k = false → (do
            let (s, r) ← parseNode L fuel s
            match r with
            | some x => parseSeq L fuel b s (acc ++ [x])
            | none => parseSeq L fuel b s acc) = .ok (s', r) → SeqForm b s s' := by
          intro hc h
          obtain ⟨⟨s1, x⟩, h1, h2⟩ := Outcome.bind_eq_ok.mp h
          cases x with
          | none => exact next _ _ _ h1 hc h2
          | some x => exact next _ _ _ h1 hc h2
        cases k <;> simp only at h
        case rbrace => cases h
        case rparen =>
          injection h with h; injection h with h1 _
          cases b with
          | true =>
            subst h1
            exact ⟨[], by simp [PS.adv], fun _ => ⟨[], t, 0, by simp [hs, PS.adv], ht, .nil⟩⟩
          | false =>
            simp only [Bool.false_eq_true, if_false] at h1
            subst h1
            exact err_form (dup_ne2 _ _) (es := []) (s' := PS.adv _) (by simp [PS.adv]; rfl) ⟨[], by simp⟩ _
        case rbracket =>
          injection h with h; injection h with h1 _
          cases b with
          | false =>
            subst h1
            exact ⟨[], by simp [PS.adv], fun _ => ⟨[], t, 0, by simp [hs, PS.adv], ht, .nil⟩⟩
          | true =>
            simp only [if_true] at h1
            subst h1
            exact err_form (dup_ne2 _ _) (es := []) (s' := PS.adv _) (by simp [PS.adv]; rfl) ⟨[], by simp⟩ _
        all_goals exact next' rfl h
    · intro s es s' r h
      rw [parseMap] at h
      cases hk : s.kind with
      | none =>
        rw [hk] at h
        obtain ⟨e1, hl, -⟩ := ihm _ _ _ _ h
        refine err_form dup_ne6 (es := e1) hl ?_ _
        obtain ⟨x, -, hx⟩ := err_log s "Unexpected end of file while parsing map key"
        exact ⟨[x], by rw [hx]⟩
      | some k =>
        obtain ⟨t, ts, hs, ht⟩ := kind_some hk
        rw [hk] at h
        have next : isCloser k = false → (do
            let (s, k) ← parseNode L fuel s
            match k with
            | none => parseMap L fuel (s.err "failed to parse map key") es
            | some k =>
              match s.kind with
              | none =>
                parseMap L fuel
                  ((s.err "Unexpected end of file while parsing map value").err "key not followed by value in map") es
              | some .rbrace => .throw fmtBrace
              | some .rparen => .throw fmtBrace
              | some _ => do
                let (s, v) ← parseNode L fuel s
                match v with
                | none => parseMap L fuel (s.err "key not followed by value in map") es
                | some v => do
                  let _ ← Node.hash L k
                  let s := match findKey L es k with
                    | some _ => s.err "duplicate key discovered in map"
                    | none => s
                  parseMap L fuel s (insertEntry L es (k, v))) = .ok (s', r) → MapForm s s' := by
          intro hc h
          obtain ⟨⟨s1, x⟩, h1, h2⟩ := Outcome.bind_eq_ok.mp h
          obtain ⟨e1, hl1, hd1⟩ := ihn _ _ _ h1
          cases x with
          | none =>
            simp only at h2
            obtain ⟨e2, hl2, -⟩ := ihm _ _ _ _ h2
            exact err_form dup_ne6 hl2 ⟨e1, hl1⟩ _
          | some nk =>
            simp only at h2
            cases hk1 : s1.kind with
            | none =>
              rw [hk1] at h2
              obtain ⟨e2, hl2, -⟩ := ihm _ _ _ _ h2
              refine err_form dup_ne8 hl2 ?_ _
              obtain ⟨x, -, hx⟩ := err_log s1 "Unexpected end of file while parsing map value"
              exact ⟨e1 ++ [x], by rw [hx]; simp [hl1]⟩
            | some k1 =>
              obtain ⟨t1, ts1, hs1, ht1⟩ := kind_some hk1
              rw [hk1] at h2
              have next2 : (do
                  let (s, v) ← parseNode L fuel s1
                  match v with
                  | none => parseMap L fuel (s.err "key not followed by value in map") es
                  | some v => do
                    let _ ← Node.hash L nk
                    let s := match findKey L es nk with
                      | some _ => s.err "duplicate key discovered in map"
                      | none => s
                    parseMap L fuel s (insertEntry L es (nk, v))) = .ok (s', r) → MapForm s s' := by
                intro h
                obtain ⟨⟨s2, y⟩, h3, h4⟩ := Outcome.bind_eq_ok.mp h
                obtain ⟨e2, hl2, hd2⟩ := ihn _ _ _ h3
                have hl12 : s2.log = s.log ++ (e1 ++ e2) := by rw [hl2, hl1, List.append_assoc]
                cases y with
                | none =>
                  simp only at h4
                  obtain ⟨e3, hl3, -⟩ := ihm _ _ _ _ h4
                  exact err_form dup_ne8 hl3 ⟨_, hl12⟩ _
                | some nv =>
                  simp only at h4
                  obtain ⟨hh, -, h5⟩ := Outcome.bind_eq_ok.mp h4
                  have hst : ∃ s3 : PS, ∃ e3, s3.toks = s2.toks ∧ s3.log = s2.log ++ e3 ∧
                      parseMap L fuel s3 (insertEntry L es (nk, nv)) = .ok (s', r) := by
                    cases hfk : findKey L es nk with
                    | none => rw [hfk] at h5; exact ⟨s2, [], rfl, by simp, h5⟩
                    | some f =>
                      rw [hfk] at h5
                      obtain ⟨x, -, hx⟩ := err_log s2 "duplicate key discovered in map"
                      refine ⟨_, [x], err_toks _ _, ?_, h5⟩
                      rw [hx]
                  obtain ⟨s3, e3, ht3, hl3, h6⟩ := hst
                  obtain ⟨e4, hl4, hd4⟩ := ihm _ _ _ _ h6
                  refine ⟨e1 ++ e2 ++ (e3 ++ e4), by rw [hl4, hl3, hl12]; simp, fun hd => ?_⟩
                  obtain ⟨-, a1, p1, ha1, hq1⟩ := hd1 hd.left.left (by rw [hs]; simp)
                  obtain ⟨-, a2, p2, ha2, hq2⟩ := hd2 hd.left.right (by rw [hs1]; simp)
                  obtain ⟨a3, c, p3, ha3, hc3, hq3⟩ := hd4 hd.right.right
                  refine ⟨a1 ++ (a2 ++ a3), c, p1 + p2 + 1 + p3, ?_, hc3, ?_⟩
                  · rw [ha1, ha2, ← ht3, ha3]; simp
                  · simp only [List.map_append]; exact .cons hq1 hq2 hq3
              cases k1 <;> simp only at h2
              case rbrace | rparen => cases h2
              all_goals exact next2 h2
        cases k <;> simp only at h
        case rbrace =>
          injection h with h; injection h with h1 _; subst h1
          exact ⟨[], by simp [PS.adv], fun _ => ⟨[], t, 0, by simp [hs, PS.adv], ht, .nil⟩⟩
        case rparen =>
          injection h with h; injection h with h1 _; subst h1
          exact err_form dup_ne3 (es := []) (s' := PS.adv _) (by simp [PS.adv]; rfl) ⟨[], by simp⟩ _
        case rbracket =>
          injection h with h; injection h with h1 _; subst h1
          exact err_form dup_ne4 (es := []) (s' := PS.adv _) (by simp [PS.adv]; rfl) ⟨[], by simp⟩ _
        all_goals exact next rfl h

theorem top_form (L : Lib) : ∀ (fuel : Nat) (s : PS) (acc : List Node) (s' : PS) (r : List Node),
    parseTop L fuel s acc = .ok (s', r) → ∃ errs, s'.log = s.log ++ errs ∧
      (Dups errs → ∃ p, IsSeq (s.toks.map (·.kind)) p) := by
  intro fuel
  induction fuel with
  | zero => intro s acc s' r h; rw [parseTop] at h; cases h
  | succ fuel ih =>
    intro s acc s' r h
    rw [parseTop] at h
    cases hs : s.toks with
    | nil =>
      rw [hs] at h
      injection h with h; injection h with h1 _; subst h1
      exact ⟨[], by simp, fun _ => ⟨0, .nil⟩⟩
    | cons t ts =>
      rw [hs] at h
      obtain ⟨⟨s1, x⟩, h1, h2⟩ := Outcome.bind_eq_ok.mp h
      obtain ⟨e1, hl1, hd1⟩ := (form_all L fuel).1 _ _ _ h1
      have hst : ∃ acc', parseTop L fuel s1 acc' = .ok (s', r) := by
        cases x with
        | none => exact ⟨_, h2⟩
        | some x => exact ⟨_, h2⟩
      obtain ⟨acc', h3⟩ := hst
      obtain ⟨e2, hl2, hd2⟩ := ih _ _ _ _ h3
      refine ⟨e1 ++ e2, by rw [hl2, hl1, List.append_assoc], fun hd => ?_⟩
      obtain ⟨-, a, p, ha, hq⟩ := hd1 hd.left (by rw [hs]; simp)
      obtain ⟨q, hq'⟩ := hd2 hd.right
      refine ⟨p + q, ?_⟩
      rw [← hs, ha, List.map_append]
      exact .cons hq hq'

end Ab.Edn
