import Verif.Proof.EdnHeap2
import Verif.Proof.EdnNode2
/-! Hashing and comparing nodes is hashing and comparing the trees they show. -/
namespace Ab.EdnHeap

open Spec Edn

/-- From some depth on. -/
def Ev (P : Nat → Prop) : Prop := ∃ N, ∀ n, N ≤ n → P n

theorem Ev.and {P Q : Nat → Prop} (a : Ev P) (b : Ev Q) : Ev (fun n => P n ∧ Q n) := by
  obtain ⟨N, hN⟩ := a
  obtain ⟨M, hM⟩ := b
  exact ⟨max N M, fun n hn => ⟨hN n (by omega), hM n (by omega)⟩⟩

theorem Ev.imp {P Q : Nat → Prop} (a : Ev P) (f : ∀ n, P n → Q n) : Ev Q := by
  obtain ⟨N, hN⟩ := a
  exact ⟨N, fun n hn => f n (hN n hn)⟩

theorem Ev.of {P : Nat → Prop} (h : ∀ n, P n) : Ev P := ⟨0, fun n _ => h n⟩

/-- One level deeper. -/
theorem Ev.succ {P : Nat → Prop} (a : Ev (fun n => P (n + 1))) : Ev P := by
  obtain ⟨N, hN⟩ := a
  refine ⟨N + 1, fun n hn => ?_⟩
  obtain ⟨k, rfl⟩ : ∃ k, n = k + 1 := ⟨n - 1, by omega⟩
  exact hN k (by omega)

theorem deref_some {h : Heap} {a : Nat} {c : Cell} (hc : h[a]? = some (some c)) : deref h (some a) = .ok c := by
  simp only [deref, hc]

theorem shows_inv {L : Lib} {h : Heap} {p : Ptr} {n : Node} (s : Shows L h p n) :
    (∃ (a : Nat) (c : Cell) (x : Atom), p = some a ∧ h[a]? = some (some c) ∧ c.body = .atom x ∧ n = x.node) ∨
    (∃ ns, n = .list ns) ∨ (∃ ns, n = .vec ns) ∨ ∃ ms, n = .map ms := by
  cases s with
  | @atom a c x hc hb => exact Or.inl ⟨a, c, x, rfl, hc, hb, rfl⟩
  | list => exact Or.inr (Or.inl ⟨_, rfl⟩)
  | vec => exact Or.inr (Or.inr (Or.inl ⟨_, rfl⟩))
  | map => exact Or.inr (Or.inr (Or.inr ⟨_, rfl⟩))

theorem eqList_length {L : Lib} : ∀ {xs ys : List Node}, eqList L xs ys = true → xs.length = ys.length
  | [], [], _ => rfl
  | [], _ :: _, h => by simp [eqList] at h
  | _ :: _, [], h => by simp [eqList] at h
  | x :: xs, y :: ys, h => by
    simp only [eqList, Bool.and_eq_true] at h
    simp [eqList_length h.2]

theorem atom_hash (L : Lib) (a : Atom) : Node.hash L a.node = atomHash L a := by
  cases a <;> simp only [Atom.node, Node.hash, atomHash]

theorem atom_eq (L : Lib) (a b : Atom) : Node.eq L a.node b.node = atomEq a b := by
  cases a <;> cases b <;> simp only [Atom.node, Node.eq, atomEq] <;> (rw [Bool.eq_iff_iff]; simp)

theorem hashLoop_shows (L : Lib) {h : Heap} : ∀ (ns : List Node) (ps : List Ptr) (x : U64), ShowsAll L h ps ns →
    (∀ n ∈ ns, ∀ p, Shows L h p n → Ev (fun f => hashH L h f p = Node.hash L n)) →
    Ev (fun f => hashLoop (hashH L h f) ps x = hashList L ns x)
  | [], _, x, s, _ => by cases s; exact Ev.of fun _ => by simp [hashLoop, hashList]
  | n :: ns, _, x, s, ih => by
    cases s with
    | cons s1 s2 =>
      have e1 := ih n (by simp) _ s1
      cases hn : Node.hash L n with
      | ok y =>
        refine (e1.and (hashLoop_shows L ns _ (mix x y) s2 (fun m hm => ih m (by simp [hm])))).imp fun f hf => ?_
        simp only [hashLoop, hashList, hf.1, hn, Outcome.ok_bind, hf.2]
      | _ => exact e1.imp fun f hf => by simp only [hashLoop, hashList, hf, hn]; rfl

theorem hashEntries_shows (L : Lib) {h : Heap} : ∀ (ms : List (Node × Node)) (es : List HEntry) (x : U64),
    ShowsEntries L h es ms →
    (∀ m ∈ ms, (∀ p, Shows L h p m.1 → Ev (fun f => hashH L h f p = Node.hash L m.1)) ∧
      (∀ p, Shows L h p m.2 → Ev (fun f => hashH L h f p = Node.hash L m.2))) →
    Ev (fun f => hashLoop (hashH L h f) (es.flatMap fun e => [some e.key, e.val]) x = hashEntries L ms x)
  | [], _, x, s, _ => by cases s; exact Ev.of fun _ => by simp [hashLoop, hashEntries]
  | (k, v) :: ms, _, x, s, ih => by
    cases s with
    | @cons e es _ _ _ s1 s2 hk s3 =>
      have e1 := (ih (k, v) (by simp)).1 _ s1
      have e2 := (ih (k, v) (by simp)).2 _ s2
      simp only at e1 e2
      cases hv : Node.hash L v with
      | ok y =>
        refine ((e1.and e2).and (hashEntries_shows L ms es (mix (mix x e.hash) y) s3
          (fun m hm => ih m (by simp [hm])))).imp fun f hf => ?_
        simp only [List.flatMap_cons, List.cons_append, List.nil_append, hashLoop, hashEntries, hashEntry, hf.1.1, hf.1.2,
          hk, hv, Outcome.ok_bind, hf.2, Outcome.pure_eq]
      | _ =>
        exact (e1.and e2).imp fun f hf => by
          simp only [List.flatMap_cons, List.cons_append, List.nil_append, hashLoop, hashEntries, hashEntry, hf.1, hf.2, hk,
            hv, Outcome.ok_bind]; rfl

theorem hash_atom (L : Lib) {h : Heap} {a : Nat} {c : Cell} {x : Atom} (hc : h[a]? = some (some c))
    (hb : c.body = .atom x) : Ev (fun f => hashH L h f (some a) = Node.hash L x.node) :=
  Ev.succ (Ev.of fun f => by rw [hashH, deref_some hc, Outcome.ok_bind, hb, atom_hash])

/-- `node_hash` of a node is the hash of the tree it shows. -/
theorem hash_shows (L : Lib) {h : Heap} : ∀ (n : Node) (p : Ptr), Shows L h p n →
    Ev (fun f => hashH L h f p = Node.hash L n) := by
  intro n
  induction n using Node.ind with
  | list ns ih =>
    intro p s
    generalize hn : Node.list ns = n at s
    cases s with
    | @atom a c x hc hb => rw [hn] at *; exact hash_atom L hc hb
    | @list a c xs ns' hc hb hs =>
      injection hn with hn; subst hn
      refine Ev.succ ((hashLoop_shows L ns xs (mix HASH_SEED 8#64) hs ih).imp fun f hf => ?_)
      rw [hashH, deref_some hc, Outcome.ok_bind, hb]
      simp only [hf, Node.hash]
    | vec => cases hn
    | map => cases hn
  | vec ns ih =>
    intro p s
    generalize hn : Node.vec ns = n at s
    cases s with
    | @atom a c x hc hb => exact hn ▸ hash_atom L hc hb
    | @vec a c xs ns' hc hb hs =>
      injection hn with hn; subst hn
      refine Ev.succ ((hashLoop_shows L ns xs (mix HASH_SEED 9#64) hs ih).imp fun f hf => ?_)
      rw [hashH, deref_some hc, Outcome.ok_bind, hb]
      simp only [hf, Node.hash]
    | list => cases hn
    | map => cases hn
  | map ms ih =>
    intro p s
    generalize hn : Node.map ms = n at s
    cases s with
    | @atom a c x hc hb => exact hn ▸ hash_atom L hc hb
    | @map a c es ms' hc hb hs =>
      injection hn with hn; subst hn
      refine Ev.succ ((hashEntries_shows L ms es HASH_SEED hs ih).imp fun f hf => ?_)
      rw [hashH, deref_some hc, Outcome.ok_bind, hb]
      simp only [hf, Node.hash]
    | list => cases hn
    | vec => cases hn
  | _ =>
    intro p s
    rcases shows_inv s with ⟨a, c, x, rfl, hc, hb, hn⟩ | ⟨_, hn⟩ | ⟨_, hn⟩ | ⟨_, hn⟩
    · rw [hn]; exact hash_atom L hc hb
    all_goals cases hn

/-! ### Comparing -/

/-- The claim, for one left tree. -/
def EqOk (L : Lib) (h : Heap) (n : Node) : Prop :=
  ∀ (p q : Ptr) (m : Node), Shows L h p n → Shows L h q m → Ev (fun f => eqH L h f p q = .ok (Node.eq L n m))

theorem showsAll_length {L : Lib} {h : Heap} : ∀ {ps : List Ptr} {ns : List Node}, ShowsAll L h ps ns → ps.length = ns.length
  | [], _, s => by cases s; rfl
  | _ :: _, _, s => by cases s with | cons _ s => simp [showsAll_length s]

theorem showsEntries_length {L : Lib} {h : Heap} : ∀ {es : List HEntry} {ms : List (Node × Node)}, ShowsEntries L h es ms →
    es.length = ms.length
  | [], _, s => by cases s; rfl
  | _ :: _, _, s => by cases s with | cons _ _ _ s => simp [showsEntries_length s]

theorem eqLoop_shows (L : Lib) {h : Heap} : ∀ (ns : List Node) (ps qs : List Ptr) (ms : List Node), ShowsAll L h ps ns →
    ShowsAll L h qs ms → ns.length = ms.length → (∀ n ∈ ns, EqOk L h n) →
    Ev (fun f => eqLoop (eqH L h f) ps qs = .ok (eqList L ns ms))
  | [], ps, qs, ms, s, t, hl, _ => by
    cases s
    cases ms with
    | nil => cases t; exact Ev.of fun _ => by simp [eqLoop, eqList]
    | cons _ _ => cases hl
  | n :: ns, ps, qs, ms, s, t, hl, ih => by
    cases s with
    | cons s1 s2 =>
      cases t with
      | nil => cases hl
      | cons t1 t2 =>
        refine ((ih n (by simp) _ _ _ s1 t1).and (eqLoop_shows L ns _ _ _ s2 t2 (by simpa using hl)
          (fun m hm => ih m (by simp [hm])))).imp fun f hf => ?_
        simp only [eqLoop, hf.1, Outcome.ok_bind, hf.2, eqList]
        cases Node.eq L n _ <;> rfl

theorem findLoop_shows (L : Lib) {h : Heap} {k : Node} {kp : Ptr} {x : U64} (hk : EqOk L h k) (sk : Shows L h kp k)
    (hx : Node.hash L k = .ok x) : ∀ (ms : List (Node × Node)) (es : List HEntry), ShowsEntries L h es ms →
    ∃ r : Option HEntry, Ev (fun f => findLoop (eqH L h f) x kp es = .ok r) ∧
      (match ms.find? (fun m => sameHash L k m.1 && Node.eq L k m.1) with
        | none => r = none
        | some m => ∃ e, r = some e ∧ e ∈ es ∧ Shows L h e.val m.2)
  | [], _, s => by cases s; exact ⟨none, Ev.of fun _ => rfl, rfl⟩
  | (k', v') :: ms, _, s => by
    cases s with
    | @cons e es _ _ _ s1 s2 hh s3 =>
      obtain ⟨r, h1, h2⟩ := findLoop_shows L hk sk hx ms es s3
      have hs : sameHash L k k' = decide (e.hash = x) := by
        unfold sameHash; rw [hx, hh]
        rw [Bool.eq_iff_iff]
        simp only [beq_iff_eq, decide_eq_true_eq]
        exact ⟨Eq.symm, Eq.symm⟩
      have lift : (match ms.find? (fun m => sameHash L k m.1 && Node.eq L k m.1) with
        | none => r = none
        | some m => ∃ d, r = some d ∧ d ∈ es ∧ Shows L h d.val m.2) →
        (match ms.find? (fun m => sameHash L k m.1 && Node.eq L k m.1) with
        | none => r = none
        | some m => ∃ d, r = some d ∧ d ∈ e :: es ∧ Shows L h d.val m.2) := by
        split
        · exact id
        · rintro ⟨d, a, b, c⟩; exact ⟨d, a, List.mem_cons_of_mem _ b, c⟩
      by_cases hex : e.hash = x
      · have e1 := hk _ _ _ sk s1
        cases hb : Node.eq L k k' with
        | true =>
          refine ⟨some e, e1.imp fun f hf => ?_, ?_⟩
          · simp only [findLoop, if_pos hex, hf, hb, Outcome.ok_bind]; rfl
          · rw [List.find?_cons_of_pos (by simp [hs, hex, hb])]
            exact ⟨e, rfl, by simp, s2⟩
        | false =>
          refine ⟨r, (e1.and h1).imp fun f hf => ?_, ?_⟩
          · simp only [findLoop, if_pos hex, hf.1, hb, Outcome.ok_bind]; exact hf.2
          · rw [List.find?_cons_of_neg (by simp [hb])]
            exact lift h2
      · refine ⟨r, h1.imp fun f hf => ?_, ?_⟩
        · simp only [findLoop, if_neg hex]; exact hf
        · rw [List.find?_cons_of_neg (by simp [hs, hex])]
          exact lift h2

theorem mapLoop_shows (L : Lib) {h : Heap} {fs : List HEntry} {ms' : List (Node × Node)} (sf : ShowsEntries L h fs ms') :
    ∀ (ms : List (Node × Node)) (es : List HEntry), ShowsEntries L h es ms →
    (∀ m ∈ ms, EqOk L h m.1 ∧ EqOk L h m.2) →
    Ev (fun f => mapLoop (hashH L h f) (eqH L h f) fs es = .ok (eqEntries L ms ms'))
  | [], _, s, _ => by cases s; exact Ev.of fun _ => by simp [mapLoop, eqEntries]
  | (k, v) :: ms, _, s, ih => by
    cases s with
    | @cons e es _ _ _ s1 s2 hh s3 =>
      have rest := mapLoop_shows L sf ms es s3 (fun m hm => ih m (by simp [hm]))
      obtain ⟨ek, ev⟩ := ih (k, v) (by simp)
      obtain ⟨r, h1, h2⟩ := findLoop_shows L ek s1 hh ms' fs sf
      have hash := hash_shows L k _ s1
      simp only [eqEntries, eqEntry]
      cases hf : ms'.find? (fun m => sameHash L k m.1 && Node.eq L k m.1) with
      | none =>
        rw [hf] at h2; simp only at h2; subst h2
        exact (hash.and h1).imp fun f hf => by
          simp only [mapLoop, hf.1, hh, Outcome.ok_bind, hf.2]; rfl
      | some m =>
        rw [hf] at h2; obtain ⟨d, rfl, _, sd⟩ := h2
        refine (((hash.and h1).and (ev _ _ _ s2 sd)).and rest).imp fun f hf => ?_
        simp only [mapLoop, hf.1.1.1, hh, Outcome.ok_bind, hf.1.1.2, hf.1.2, hf.2]
        cases Node.eq L v m.2 <;> rfl

/-- `node_eq` of two nodes is the equality of the trees they show. -/
theorem eq_shows (L : Lib) {h : Heap} : ∀ n : Node, EqOk L h n := by
  intro n
  -- the kinds
  have atoms : ∀ {a : Nat} {c : Cell} {x : Atom}, h[a]? = some (some c) → c.body = .atom x →
      ∀ q m, Shows L h q m → Ev (fun f => eqH L h f (some a) q = .ok (Node.eq L x.node m)) := by
    intro a c x hc hb q m t
    refine Ev.succ ?_
    cases t with
    | @atom b d y hd hb' =>
      exact Ev.of fun f => by
        rw [eqH, deref_some hc, Outcome.ok_bind, deref_some hd, Outcome.ok_bind, hb, hb', atom_eq]
    | @list b d ys ns hd hb' _ =>
      exact Ev.of fun f => by
        rw [eqH, deref_some hc, Outcome.ok_bind, deref_some hd, Outcome.ok_bind, hb, hb']
        cases x <;> simp [Atom.node, Node.eq]
    | @vec b d ys ns hd hb' _ =>
      exact Ev.of fun f => by
        rw [eqH, deref_some hc, Outcome.ok_bind, deref_some hd, Outcome.ok_bind, hb, hb']
        cases x <;> simp [Atom.node, Node.eq]
    | @map b d ys ns hd hb' _ =>
      exact Ev.of fun f => by
        rw [eqH, deref_some hc, Outcome.ok_bind, deref_some hd, Outcome.ok_bind, hb, hb']
        cases x <;> simp [Atom.node, Node.eq]
  induction n using Node.ind with
  | list ns ih =>
    intro p q m s t
    generalize hn : Node.list ns = n at s
    cases s with
    | @atom a c x hc hb => exact hn ▸ atoms hc hb q m t
    | @list a c xs ns' hc hb hs =>
      injection hn with hn; subst hn
      refine Ev.succ ?_
      cases t with
      | @atom b d y hd hb' =>
        exact Ev.of fun f => by
          rw [eqH, deref_some hc, Outcome.ok_bind, deref_some hd, Outcome.ok_bind, hb, hb']
          cases y <;> simp [Atom.node, Node.eq]
      | @list b d ys ms hd hb' ht =>
        by_cases hl : ns.length = ms.length
        · refine (eqLoop_shows L ns xs ys ms hs ht hl ih).imp fun f hf => ?_
          rw [eqH, deref_some hc, Outcome.ok_bind, deref_some hd, Outcome.ok_bind, hb, hb']
          simp only [showsAll_length hs, showsAll_length ht, if_pos hl, hf, Node.eq]
        · refine Ev.of fun f => ?_
          rw [eqH, deref_some hc, Outcome.ok_bind, deref_some hd, Outcome.ok_bind, hb, hb']
          simp only [showsAll_length hs, showsAll_length ht, if_neg hl, Node.eq]
          congr 1
          exact (Bool.eq_false_iff.mpr fun h => hl (eqList_length h)).symm
      | @vec b d ys ms hd hb' ht =>
        exact Ev.of fun f => by
          rw [eqH, deref_some hc, Outcome.ok_bind, deref_some hd, Outcome.ok_bind, hb, hb']; simp [Node.eq]
      | @map b d ys ms hd hb' ht =>
        exact Ev.of fun f => by
          rw [eqH, deref_some hc, Outcome.ok_bind, deref_some hd, Outcome.ok_bind, hb, hb']; simp [Node.eq]
    | vec => cases hn
    | map => cases hn
  | vec ns ih =>
    intro p q m s t
    generalize hn : Node.vec ns = n at s
    cases s with
    | @atom a c x hc hb => exact hn ▸ atoms hc hb q m t
    | @vec a c xs ns' hc hb hs =>
      injection hn with hn; subst hn
      refine Ev.succ ?_
      cases t with
      | @atom b d y hd hb' =>
        exact Ev.of fun f => by
          rw [eqH, deref_some hc, Outcome.ok_bind, deref_some hd, Outcome.ok_bind, hb, hb']
          cases y <;> simp [Atom.node, Node.eq]
      | @vec b d ys ms hd hb' ht =>
        by_cases hl : ns.length = ms.length
        · refine (eqLoop_shows L ns xs ys ms hs ht hl ih).imp fun f hf => ?_
          rw [eqH, deref_some hc, Outcome.ok_bind, deref_some hd, Outcome.ok_bind, hb, hb']
          simp only [showsAll_length hs, showsAll_length ht, if_pos hl, hf, Node.eq]
        · refine Ev.of fun f => ?_
          rw [eqH, deref_some hc, Outcome.ok_bind, deref_some hd, Outcome.ok_bind, hb, hb']
          simp only [showsAll_length hs, showsAll_length ht, if_neg hl, Node.eq]
          congr 1
          exact (Bool.eq_false_iff.mpr fun h => hl (eqList_length h)).symm
      | @list b d ys ms hd hb' ht =>
        exact Ev.of fun f => by
          rw [eqH, deref_some hc, Outcome.ok_bind, deref_some hd, Outcome.ok_bind, hb, hb']; simp [Node.eq]
      | @map b d ys ms hd hb' ht =>
        exact Ev.of fun f => by
          rw [eqH, deref_some hc, Outcome.ok_bind, deref_some hd, Outcome.ok_bind, hb, hb']; simp [Node.eq]
    | list => cases hn
    | map => cases hn
  | map ns ih =>
    intro p q m s t
    generalize hn : Node.map ns = n at s
    cases s with
    | @atom a c x hc hb => exact hn ▸ atoms hc hb q m t
    | @map a c xs ns' hc hb hs =>
      injection hn with hn; subst hn
      refine Ev.succ ?_
      cases t with
      | @atom b d y hd hb' =>
        exact Ev.of fun f => by
          rw [eqH, deref_some hc, Outcome.ok_bind, deref_some hd, Outcome.ok_bind, hb, hb']
          cases y <;> simp [Atom.node, Node.eq]
      | @map b d ys ms hd hb' ht =>
        by_cases hl : ns.length = ms.length
        · refine (mapLoop_shows L ht ns xs hs ih).imp fun f hf => ?_
          rw [eqH, deref_some hc, Outcome.ok_bind, deref_some hd, Outcome.ok_bind, hb, hb']
          have hb : (ns.length == ms.length) = true := by simp [hl]
          simp only [showsEntries_length hs, showsEntries_length ht, if_pos hl, hf, Node.eq, hb, Bool.true_and]
        · refine Ev.of fun f => ?_
          rw [eqH, deref_some hc, Outcome.ok_bind, deref_some hd, Outcome.ok_bind, hb, hb']
          simp only [showsEntries_length hs, showsEntries_length ht, if_neg hl, Node.eq, beq_false_of_ne hl, Bool.false_and]
      | @list b d ys ms hd hb' ht =>
        exact Ev.of fun f => by
          rw [eqH, deref_some hc, Outcome.ok_bind, deref_some hd, Outcome.ok_bind, hb, hb']; simp [Node.eq]
      | @vec b d ys ms hd hb' ht =>
        exact Ev.of fun f => by
          rw [eqH, deref_some hc, Outcome.ok_bind, deref_some hd, Outcome.ok_bind, hb, hb']; simp [Node.eq]
    | list => cases hn
    | vec => cases hn
  | _ =>
    intro p q m s t
    rcases shows_inv s with ⟨a, c, x, rfl, hc, hb, hn⟩ | ⟨_, hn⟩ | ⟨_, hn⟩ | ⟨_, hn⟩
    · rw [hn]; exact atoms hc hb q m t
    all_goals cases hn

end Ab.EdnHeap
