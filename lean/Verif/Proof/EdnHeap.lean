import Verif.Spec.EdnHeap
/-! Use counts of EDN nodes are exact. -/
namespace Ab.EdnHeap

open Spec Edn

def refsOf : Option Cell → List Ptr
  | some c => c.refs
  | none => []

def cnt : Option (Option Cell) → Nat
  | some (some c) => c.count
  | _ => 0

theorem Heap.refs_cons (c : Option Cell) (h : Heap) : Heap.refs (c :: h) = refsOf c ++ Heap.refs h := by
  cases c <;> rfl

theorem Heap.refs_append (h g : Heap) : Heap.refs (h ++ g) = Heap.refs h ++ Heap.refs g := by
  simp [Heap.refs, List.flatMap_append]

/-- Replacing a cell moves its `Ptr`s. -/
theorem refs_set (p : Ptr) : ∀ (h : Heap) (a : Nat) (c : Option Cell) (d : Option Cell), h[a]? = some c →
    (Heap.refs (h.set a d)).count p + (refsOf c).count p = (Heap.refs h).count p + (refsOf d).count p
  | [], a, c, d, h => by simp at h
  | x :: h, 0, c, d, hc => by
    simp at hc; subst hc
    rw [List.set_cons_zero, Heap.refs_cons, Heap.refs_cons]
    simp only [List.count_append]; omega
  | x :: h, a + 1, c, d, hc => by
    simp at hc
    have := refs_set p h a c d hc
    rw [List.set_cons_succ, Heap.refs_cons, Heap.refs_cons]
    simp only [List.count_append]; omega

theorem refs_set_length : ∀ (h : Heap) (a : Nat) (c : Option Cell) (d : Option Cell), h[a]? = some c →
    (Heap.refs (h.set a d)).length + (refsOf c).length = (Heap.refs h).length + (refsOf d).length
  | [], a, c, d, h => by simp at h
  | x :: h, 0, c, d, hc => by
    simp at hc; subst hc
    rw [List.set_cons_zero, Heap.refs_cons, Heap.refs_cons]
    simp only [List.length_append]; omega
  | x :: h, a + 1, c, d, hc => by
    simp at hc
    have := refs_set_length h a c d hc
    rw [List.set_cons_succ, Heap.refs_cons, Heap.refs_cons]
    simp only [List.length_append]; omega

/-- The nodes without their counts. -/
def bare (h : Heap) : List (Option (Body × Ptr)) := h.map (Option.map fun c => (c.body, c.mdata))

theorem bare_get (h : Heap) (a : Nat) : (bare h)[a]? = h[a]?.map (Option.map fun c => (c.body, c.mdata)) := by
  simp [bare]

theorem refs_bare (h : Heap) : h.refs = (bare h).flatMap (fun | some (b, m) => b.refs ++ [m] | none => []) := by
  induction h with
  | nil => rfl
  | cons c h ih =>
    rw [Heap.refs_cons, ih]
    cases c <;> rfl

theorem refs_of_bare {h h' : Heap} (e : bare h = bare h') : h.refs = h'.refs := by rw [refs_bare, refs_bare, e]

/-- Only the counts differ. -/
theorem bare_set {h : Heap} {a : Nat} {c d : Cell} (hc : h[a]? = some (some c)) (hb : d.body = c.body)
    (hm : d.mdata = c.mdata) : bare (h.set a (some d)) = bare h := by
  unfold bare
  apply List.ext_getElem?
  intro i
  simp only [List.getElem?_map, List.getElem?_set]
  split
  · rename_i e; subst e
    have hl : a < h.length := (List.getElem?_eq_some_iff.mp hc).1
    rw [if_pos hl, hc]
    simp [hb, hm]
  · rfl

theorem bare_deref {h h' : Heap} (e : bare h = bare h') {a : Nat} {c : Cell} (hc : h[a]? = some (some c)) :
    ∃ c', h'[a]? = some (some c') ∧ c'.body = c.body ∧ c'.mdata = c.mdata := by
  have h1 := bare_get h a
  rw [e, bare_get, hc] at h1
  cases h2 : h'[a]? with
  | none => rw [h2] at h1; cases h1
  | some o =>
    cases o with
    | none => rw [h2] at h1; cases h1
    | some c' =>
      rw [h2] at h1
      simp at h1
      exact ⟨c', rfl, h1.1, h1.2⟩

/-- Every count is the number of `Ptr`s to the node, in nodes or among the given ones, and no live node has
none. -/
structure Inv (h : Heap) (roots : List Ptr) : Prop where
  exact : ∀ a : Addr, cnt h[a]? = roots.count (some a) + h.refs.count (some a)
  pos : ∀ (a : Addr) (c : Cell), h[a]? = some (some c) → 0 < c.count

theorem Inv.perm {h : Heap} {r r' : List Ptr} (i : Inv h r) (hp : ∀ a, r.count (some a) = r'.count (some a)) :
    Inv h r' := ⟨fun a => by rw [← hp]; exact i.exact a, i.pos⟩

theorem Inv.alive {h : Heap} {r : List Ptr} (i : Inv h r) {a : Addr} (ha : some a ∈ r ∨ some a ∈ h.refs) :
    ∃ c, h[a]? = some (some c) := by
  have := i.exact a
  have hpos : 0 < cnt h[a]? := by
    rcases ha with ha | ha
    · have := List.count_pos_iff.mpr ha; omega
    · have := List.count_pos_iff.mpr ha; omega
  unfold cnt at hpos
  split at hpos
  · rename_i c hc; exact ⟨c, hc⟩
  · omega

theorem get_set {h : Heap} {a : Nat} {c : Option Cell} (hc : h[a]? = some c) (b : Nat) (d : Option Cell) :
    (h.set a d)[b]? = if b = a then some d else h[b]? := by
  rw [List.getElem?_set]
  have hl : a < h.length := (List.getElem?_eq_some_iff.mp hc).1
  by_cases e : a = b
  · subst e; rw [if_pos rfl, if_pos rfl, if_pos hl]
  · rw [if_neg e, if_neg (fun x => e x.symm)]

/-- Writing a cell. -/
theorem Inv.update {h : Heap} {r r' : List Ptr} (i : Inv h r) {a : Addr} {c d : Cell} (hc : h[a]? = some (some c))
    (hd : 0 < d.count)
    (hn : ∀ b : Addr, r'.count (some b) + d.refs.count (some b) + (if b = a then c.count else 0) =
      r.count (some b) + c.refs.count (some b) + (if b = a then d.count else 0)) : Inv (h.set a (some d)) r' := by
  refine ⟨fun b => ?_, fun b x hx => ?_⟩
  · have h1 := refs_set (some b) h a _ (some d) hc
    have h2 := hn b
    have h3 := i.exact b
    rw [get_set hc]
    simp only [refsOf] at h1
    split
    · rename_i e; subst e
      rw [hc] at h3
      simp only [cnt, if_true] at *
      omega
    · rename_i e
      simp only [if_neg e] at h2
      omega
  · rw [get_set hc] at hx
    split at hx
    · injection hx with hx; injection hx with hx; subst hx; exact hd
    · exact i.pos b x hx

theorem count_cons_ite (a b : Addr) (r : List Ptr) :
    (some a :: r).count (some b) = r.count (some b) + if b = a then 1 else 0 := by
  rw [List.count_cons]
  by_cases e : b = a
  · subst e; simp
  · rw [if_neg e]
    have : ¬ (some a : Ptr) == some b := by simp; exact fun x => e x.symm
    simp [this]

/-- One more use. -/
theorem retain_spec {h : Heap} {r : List Ptr} (i : Inv h r) {p : Ptr} (hp : p ∈ r ∨ p ∈ h.refs ∨ p = none) :
    ∃ h', retain h p = .ok h' ∧ Inv h' (p :: r) ∧ bare h' = bare h := by
  cases p with
  | none =>
    exact ⟨h, rfl, i.perm (fun a => by simp), rfl⟩
  | some a =>
    obtain ⟨c, hc⟩ := i.alive (a := a) (by
      rcases hp with h | h | h
      · exact Or.inl h
      · exact Or.inr h
      · cases h)
    refine ⟨h.set a (some { c with count := c.count + 1 }), by simp only [retain, hc],
      i.update hc (Nat.succ_pos _) ?_, bare_set hc rfl rfl⟩
    intro b
    rw [count_cons_ite]
    simp only [Cell.refs]
    split <;> omega

theorem retainAll_spec : ∀ (ps : List Ptr) {h : Heap} {r : List Ptr}, Inv h r →
    (∀ p ∈ ps, p ∈ r ∨ p ∈ h.refs ∨ p = none) →
    ∃ h', retainAll h ps = .ok h' ∧ Inv h' (ps ++ r) ∧ bare h' = bare h
  | [], h, r, i, _ => ⟨h, rfl, i, rfl⟩
  | p :: ps, h, r, i, hp => by
    obtain ⟨h1, e1, i1, b1⟩ := retain_spec i (hp p (by simp))
    obtain ⟨h2, e2, i2, b2⟩ := retainAll_spec ps i1 (fun q hq => by
      rw [refs_of_bare b1]
      rcases hp q (by simp [hq]) with h | h | h
      · exact Or.inl (by simp [h])
      · exact Or.inr (Or.inl h)
      · exact Or.inr (Or.inr h))
    refine ⟨h2, by simp only [retainAll, e1, Outcome.ok_bind, e2], i2.perm ?_, b2.trans b1⟩
    intro a; simp [List.count_append, List.count_cons]; omega

/-- Every cell of the second was in the first, with the same content. -/
def Sub (h' h : Heap) : Prop :=
  h'.length = h.length ∧ ∀ (a : Addr) (c : Cell), h'[a]? = some (some c) →
    ∃ d : Cell, h[a]? = some (some d) ∧ d.body = c.body ∧ d.mdata = c.mdata

theorem Sub.refl (h : Heap) : Sub h h := ⟨rfl, fun _ c hc => ⟨c, hc, rfl, rfl⟩⟩

theorem Sub.trans {h h' h'' : Heap} (x : Sub h'' h') (y : Sub h' h) : Sub h'' h :=
  ⟨x.1.trans y.1, fun a c hc => by
    obtain ⟨d, hd, e1, e2⟩ := x.2 a c hc
    obtain ⟨d', hd', e1', e2'⟩ := y.2 a d hd
    exact ⟨d', hd', e1'.trans e1, e2'.trans e2⟩⟩

/-- Ending lives: it ends, and nothing is followed after it is destroyed. -/
theorem release_spec : ∀ (n : Nat) (h : Heap) (w r : List Ptr), Inv h (w ++ r) → h.refs.length + w.length ≤ n →
    ∃ h', release n h w = .ok h' ∧ Inv h' r ∧ Sub h' h
  | n, h, [], r, i, _ => ⟨h, by cases n <;> rfl, i, Sub.refl h⟩
  | 0, h, p :: w, r, i, hn => by simp at hn
  | n + 1, h, none :: w, r, i, hn => by
    obtain ⟨h', e, i', s⟩ := release_spec n h w r (i.perm (fun a => by simp)) (by simp at hn; omega)
    exact ⟨h', e, i', s⟩
  | n + 1, h, some a :: w, r, i, hn => by
    obtain ⟨c, hc⟩ := i.alive (a := a) (by simp)
    have hpos := i.pos a c hc
    simp only [List.length_cons] at hn
    simp only [release, hc]
    split
    · rename_i h1
      have hlen := refs_set_length h a _ none hc
      simp only [refsOf, List.length_nil] at hlen
      have i2 : Inv (h.set a none) (c.refs ++ w ++ r) := by
        refine ⟨fun b => ?_, fun b x hx => ?_⟩
        · have h2 := refs_set (some b) h a _ none hc
          have h3 := i.exact b
          rw [List.cons_append, count_cons_ite] at h3
          rw [get_set hc]
          simp only [refsOf, List.count_append, List.count_nil] at *
          split
          · rename_i e; subst e
            rw [hc] at h3
            simp only [cnt, if_true] at *
            omega
          · rename_i e
            simp only [if_neg e] at h3
            omega
        · rw [get_set hc] at hx
          split at hx
          · cases hx
          · exact i.pos b x hx
      obtain ⟨h', e, i', s⟩ := release_spec n (h.set a none) (c.refs ++ w) r i2 (by simp; omega)
      refine ⟨h', e, i', s.trans ⟨by simp, fun b d hd => ?_⟩⟩
      rw [get_set hc] at hd
      split at hd
      · cases hd
      · exact ⟨d, hd, rfl, rfl⟩
    · rename_i h1
      rw [if_neg (by omega)]
      have hb : bare (h.set a (some { c with count := c.count - 1 })) = bare h := bare_set hc rfl rfl
      obtain ⟨h', e, i', s⟩ := release_spec n (h.set a (some { c with count := c.count - 1 })) w r
        (i.update hc (show 0 < c.count - 1 by omega) (fun b => by
          rw [List.cons_append, count_cons_ite]
          simp only [Cell.refs]
          split <;> omega))
        (by rw [refs_of_bare hb]; omega)
      refine ⟨h', e, i', s.trans ⟨by simp, fun b d hd => ?_⟩⟩
      exact bare_deref hb hd |>.imp fun _ x => x

theorem drop_spec {h : Heap} {w r : List Ptr} (i : Inv h (w ++ r)) :
    ∃ h', drop h w = .ok h' ∧ Inv h' r ∧ Sub h' h :=
  release_spec _ h w r i (Nat.le_refl _)

/-! ### Steps -/

/-- A `Ptr` that may be followed or is null. -/
def Valid (h : Heap) : Ptr → Prop
  | none => True
  | some a => ∃ c, h[a]? = some (some c)

/-- All `Ptr`s in nodes are. -/
def Closed (h : Heap) : Prop := ∀ p ∈ h.refs, Valid h p

theorem Inv.valid {h : Heap} {r : List Ptr} (i : Inv h r) {p : Ptr} (hp : p ∈ r ∨ p ∈ h.refs) : Valid h p := by
  cases p with
  | none => trivial
  | some a => exact i.alive hp

theorem Inv.closed {h : Heap} {r : List Ptr} (i : Inv h r) : Closed h := fun _ hp => i.valid (Or.inr hp)

theorem mem_refs {h : Heap} {a : Nat} {c : Cell} (hc : h[a]? = some (some c)) {p : Ptr} (hp : p ∈ c.refs) : p ∈ h.refs := by
  unfold Heap.refs
  rw [List.mem_flatMap]
  exact ⟨some c, List.mem_of_getElem? hc, hp⟩

/-- The only undefined behaviour is following a null pointer. -/
def Tame {α} : Outcome α → Prop
  | .ub m => m = "null pointer"
  | _ => True

theorem Tame.bind {α β} {x : Outcome α} {f : α → Outcome β} (hx : Tame x) (hf : ∀ v, x = .ok v → Tame (f v)) :
    Tame (x >>= f) := by
  cases x <;> first | exact hf _ rfl | exact hx | trivial

theorem deref_tame {h : Heap} {p : Ptr} (hp : Valid h p) : Tame (deref h p) := by
  cases p with
  | none => rfl
  | some a => obtain ⟨c, hc⟩ := hp; simp only [deref, hc]; trivial

theorem deref_ok {h : Heap} {p : Ptr} {c : Cell} (hd : deref h p = .ok c) : ∃ a, p = some a ∧ h[a]? = some (some c) := by
  cases p with
  | none => cases hd
  | some a =>
    simp only [deref] at hd
    split at hd
    · rename_i c' hc; injection hd with hd; subst hd; exact ⟨a, rfl, hc⟩
    · cases hd

theorem hashLoop_tame {f : Ptr → Outcome U64} : ∀ (ps : List Ptr) (x : U64), (∀ p ∈ ps, Tame (f p)) → Tame (hashLoop f ps x)
  | [], x, _ => trivial
  | p :: ps, x, h => (h p (by simp)).bind fun v _ => hashLoop_tame ps _ (fun q hq => h q (by simp [hq]))

theorem atomHash_tame (L : Lib) (a : Atom) : Tame (atomHash L a) := by cases a <;> trivial

theorem hashH_tame (L : Lib) {h : Heap} (hcl : Closed h) : ∀ (n : Nat) (p : Ptr), Valid h p → Tame (hashH L h n p)
  | 0, p, _ => trivial
  | n + 1, p, hp => by
    refine (deref_tame hp).bind fun c hc => ?_
    obtain ⟨a, rfl, ha⟩ := deref_ok hc
    have hv : ∀ q ∈ c.body.refs, Tame (hashH L h n q) := fun q hq =>
      hashH_tame L hcl n q (hcl q (mem_refs ha (List.mem_append_left _ hq)))
    revert hv
    cases c.body with
    | atom b => intro _; exact atomHash_tame L b
    | list xs => intro hv; exact hashLoop_tame _ _ hv
    | vec xs => intro hv; exact hashLoop_tame _ _ hv
    | map es => intro hv; exact hashLoop_tame _ _ hv

theorem eqLoop_tame {f : Ptr → Ptr → Outcome Bool} : ∀ (xs ys : List Ptr), (∀ x ∈ xs, ∀ y ∈ ys, Tame (f x y)) →
    Tame (eqLoop f xs ys)
  | [], ys, _ => trivial
  | x :: xs, [], _ => trivial
  | x :: xs, y :: ys, h => (h x (by simp) y (by simp)).bind fun v _ => by
    cases v
    · trivial
    · exact eqLoop_tame xs ys (fun a ha b hb => h a (by simp [ha]) b (by simp [hb]))

theorem findLoop_tame {f : Ptr → Ptr → Outcome Bool} (x : U64) (k : Ptr) : ∀ (es : List HEntry),
    (∀ e ∈ es, Tame (f k (some e.key))) → Tame (findLoop f x k es)
  | [], _ => trivial
  | e :: es, h => by
    have ih := findLoop_tame x k es (fun d hd => h d (by simp [hd]))
    simp only [findLoop]
    split
    · refine (h e (by simp)).bind fun b _ => ?_
      cases b
      · exact ih
      · trivial
    · exact ih

theorem findLoop_mem {f : Ptr → Ptr → Outcome Bool} {x : U64} {k : Ptr} : ∀ {es : List HEntry} {e : HEntry},
    findLoop f x k es = .ok (some e) → e ∈ es
  | [], e, h => by simp [findLoop] at h
  | d :: es, e, h => by
    simp only [findLoop] at h
    split at h
    · obtain ⟨b, hb, h⟩ := Outcome.bind_eq_ok.mp h
      split at h
      · injection h with h; injection h with h; subst h; simp
      · exact List.mem_cons_of_mem _ (findLoop_mem h)
    · exact List.mem_cons_of_mem _ (findLoop_mem h)

theorem mapLoop_tame {g : Ptr → Outcome U64} {f : Ptr → Ptr → Outcome Bool} (fs : List HEntry) : ∀ (es : List HEntry),
    (∀ e ∈ es, Tame (g (some e.key))) →
    (∀ e ∈ es, ∀ d ∈ fs, Tame (f (some e.key) (some d.key)) ∧ Tame (f e.val d.val)) → Tame (mapLoop g f fs es)
  | [], _, _ => trivial
  | e :: es, h1, h2 => by
    have ih := mapLoop_tame fs es (fun d hd => h1 d (by simp [hd])) (fun d hd => h2 d (by simp [hd]))
    refine (h1 e (by simp)).bind fun x _ => ?_
    refine (findLoop_tame x _ fs (fun d hd => (h2 e (by simp) d hd).1)).bind fun r hr => ?_
    cases r with
    | none => trivial
    | some d =>
      refine (h2 e (by simp) d (findLoop_mem hr)).2.bind fun b _ => ?_
      cases b
      · trivial
      · exact ih

theorem eqH_tame (L : Lib) {h : Heap} (hcl : Closed h) : ∀ (n : Nat) (p q : Ptr), Valid h p → Valid h q → Tame (eqH L h n p q)
  | 0, p, q, _, _ => trivial
  | n + 1, p, q, hp, hq => by
    refine (deref_tame hp).bind fun c hc => (deref_tame hq).bind fun d hd => ?_
    obtain ⟨a, rfl, ha⟩ := deref_ok hc
    obtain ⟨b, rfl, hb⟩ := deref_ok hd
    have hv : ∀ p ∈ c.body.refs, Valid h p := fun q hq => hcl q (mem_refs ha (List.mem_append_left _ hq))
    have hw : ∀ p ∈ d.body.refs, Valid h p := fun q hq => hcl q (mem_refs hb (List.mem_append_left _ hq))
    revert hv hw
    cases c.body <;> cases d.body <;> intro hv hw <;> simp only <;> first
      | trivial
      | (split
         · first
           | exact eqLoop_tame _ _ (fun x hx y hy => eqH_tame L hcl n x y (hv x hx) (hw y hy))
           | (refine mapLoop_tame _ _ (fun e he => hashH_tame L hcl n _ (hv _ ?_))
                (fun e he d hd => ⟨eqH_tame L hcl n _ _ (hv _ ?_) (hw _ ?_), eqH_tame L hcl n _ _ (hv _ ?_) (hw _ ?_)⟩)
              all_goals (simp only [Body.refs, List.mem_flatMap]; exact ⟨_, by assumption, by simp⟩))
         · trivial)

theorem var_mem {s : State} {x : Nat} {p : Ptr} (h : s.var x = .ok p) : p ∈ s.vars := by
  unfold State.var at h
  split at h
  · rename_i q hq; injection h with h; subst h; exact List.mem_of_getElem? hq
  · cases h

theorem varAll_mem {s : State} : ∀ {ys : List Nat} {ps : List Ptr}, s.varAll ys = .ok ps → ∀ p ∈ ps, p ∈ s.vars
  | [], ps, h, p, hp => by simp only [State.varAll] at h; injection h with h; subst h; cases hp
  | y :: ys, ps, h, p, hp => by
    obtain ⟨q, hq, h⟩ := Outcome.bind_eq_ok.mp h
    obtain ⟨qs, hqs, h⟩ := Outcome.bind_eq_ok.mp h
    injection h with h; subst h
    rcases List.mem_cons.mp hp with rfl | hp
    · exact var_mem hq
    · exact varAll_mem hqs p hp

theorem var_tame (s : State) (x : Nat) : Tame (s.var x) := by unfold State.var; split <;> trivial

theorem varAll_tame (s : State) : ∀ ys, Tame (s.varAll ys)
  | [] => trivial
  | y :: ys => (var_tame s y).bind fun _ _ => (varAll_tame s ys).bind fun _ _ => trivial

/-- Counts exact, in a state. -/
def Fine : Outcome State → Prop
  | .ok s => Inv s.heap s.vars
  | .ub m => m = "null pointer"
  | _ => True

theorem Fine.bind {α} {x : Outcome α} {f : α → Outcome State} (hx : Tame x) (hf : ∀ v, x = .ok v → Fine (f v)) :
    Fine (x >>= f) := by
  cases x <;> first | exact hf _ rfl | exact hx | trivial

theorem set_count {vars : List Ptr} {x : Nat} {old : Ptr} (hx : vars[x]? = some old) (p : Ptr) (q : Ptr) :
    (vars.set x p).count q + [old].count q = vars.count q + [p].count q := by
  induction vars generalizing x with
  | nil => simp at hx
  | cons v vs ih =>
    cases x with
    | zero =>
      simp at hx; subst hx
      simp only [List.set_cons_zero, List.count_cons, List.count_nil]; omega
    | succ x =>
      simp at hx
      have := ih hx
      simp only [List.set_cons_succ, List.count_cons, List.count_nil] at *; omega

theorem assign_fine {s : State} {x : Nat} {p : Ptr} (i : Inv s.heap (p :: s.vars)) : Fine (s.assign x p) := by
  refine Fine.bind (var_tame s x) fun old ho => ?_
  have hx : s.vars[x]? = some old := by
    unfold State.var at ho
    split at ho
    · rename_i q hq; injection ho with ho; subst ho; exact hq
    · cases ho
  obtain ⟨h', e, i', _⟩ := drop_spec (w := [old]) (r := s.vars.set x p) (i.perm (fun a => by
    have := set_count hx p (some a)
    rw [List.count_append]
    simp only [List.count_cons, List.count_nil] at *; omega))
  rw [e]
  exact i'

/-- A new node. -/
theorem fresh_fine {s : State} (i : Inv s.heap s.vars) {x : Nat} {b : Body} (hb : ∀ p ∈ b.refs, p ∈ s.vars) :
    Fine (s.fresh x b) := by
  obtain ⟨h1, e1, i1, b1⟩ := retainAll_spec b.refs i (fun p hp => Or.inl (hb p hp))
  unfold State.fresh
  rw [e1, Outcome.ok_bind]
  have hl : h1.length = s.heap.length := by
    have := congrArg List.length b1
    simpa [bare] using this
  rw [← hl]
  apply assign_fine
  refine ⟨fun (a : Nat) => ?_, fun (a : Nat) c hc => ?_⟩
  · have h2 := i1.exact a
    simp only [Heap.refs_append, List.count_append, Heap.refs_cons, refsOf, Cell.refs] at *
    rw [count_cons_ite, show Heap.refs [] = [] from rfl]
    have e0 : [(none : Ptr)].count (some a) = 0 := by simp
    by_cases hlt : a < h1.length
    · have hne : ¬ a = h1.length := by omega
      rw [List.getElem?_append_left hlt, if_neg hne, e0]
      simp only [List.count_nil]; omega
    · have hge : h1.length ≤ a := by omega
      rw [List.getElem?_append_right hge]
      have h3 : cnt h1[a]? = 0 := by rw [List.getElem?_eq_none hge]; rfl
      by_cases he : a = h1.length
      · subst he
        rw [Nat.sub_self, if_pos rfl, e0]
        simp only [List.getElem?_cons_zero, List.count_nil]
        show 1 = _
        omega
      · have hge' : [some (⟨1, none, b⟩ : Cell)].length ≤ a - h1.length := by simp; omega
        rw [if_neg he, e0, List.getElem?_eq_none hge']
        simp only [List.count_nil]
        show 0 = _
        omega
  · by_cases hlt : a < h1.length
    · rw [List.getElem?_append_left hlt] at hc
      exact i1.pos a c hc
    · have hge : h1.length ≤ a := by omega
      rw [List.getElem?_append_right hge] at hc
      cases hk : a - h1.length with
      | zero =>
        rw [hk] at hc
        simp at hc; subst hc; exact Nat.one_pos
      | succ k => rw [hk] at hc; simp at hc

theorem elements_tame (b : Body) : Tame (elements b) := by cases b <;> trivial
theorem entries_tame (b : Body) : Tame (entries b) := by cases b <;> trivial
theorem addr_tame (p : Ptr) : Tame (addr p) := by cases p <;> first | rfl | trivial

theorem elements_refs {b : Body} {xs : List Ptr} (h : elements b = .ok xs) :
    b.refs = xs ∧ ∀ ys, (withElements b ys).refs = ys := by
  cases b <;> simp only [elements] at h <;> first | (injection h with h; subst h; exact ⟨rfl, fun _ => rfl⟩) | cases h

theorem entries_refs {b : Body} {es : List HEntry} (h : entries b = .ok es) : b = .map es := by
  cases b <;> simp only [entries] at h <;> first | (injection h with h; subst h; rfl) | cases h

theorem addr_ok {p : Ptr} {a : Addr} (h : addr p = .ok a) : p = some a := by
  cases p <;> simp only [addr] at h <;> first | (injection h with h; subst h; rfl) | cases h

end Ab.EdnHeap
