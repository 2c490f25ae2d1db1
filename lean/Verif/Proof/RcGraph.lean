import Verif.Spec.RcGraph
/-! Counters of objects that hold counted pointers are exact. -/
namespace Ab.RcG
open Spec.RcG

def refsOf : Option Obj → List Ptr
  | some c => c.fields
  | none => []

def cnt : Option (Option Obj) → Nat
  | some (some c) => c.count
  | _ => 0

theorem Heap.refs_cons (c : Option Obj) (h : Heap) : Heap.refs (c :: h) = refsOf c ++ Heap.refs h := by
  cases c <;> rfl

theorem Heap.refs_append (h g : Heap) : Heap.refs (h ++ g) = Heap.refs h ++ Heap.refs g := by
  simp [Heap.refs, List.flatMap_append]

theorem refs_set (p : Ptr) : ∀ (h : Heap) (a : Nat) (c : Option Obj) (d : Option Obj), h[a]? = some c →
    (Heap.refs (h.set a d)).count p + (refsOf c).count p = (Heap.refs h).count p + (refsOf d).count p
  | [], a, c, d, h => by simp at h
  | x :: h, 0, c, d, hc => by
    simp at hc; subst hc
    rw [List.set_cons_zero, Heap.refs_cons, Heap.refs_cons]
    simp only [List.count_append]; omega
  | x :: h, a + 1, c, d, hc => by
    simp at hc
    have := refs_set p h a c d hc
    rw [List.set_cons_succ, Heap.refs_cons, Heap.refs_cons]
    simp only [List.count_append]; omega

theorem refs_set_length : ∀ (h : Heap) (a : Nat) (c : Option Obj) (d : Option Obj), h[a]? = some c →
    (Heap.refs (h.set a d)).length + (refsOf c).length = (Heap.refs h).length + (refsOf d).length
  | [], a, c, d, h => by simp at h
  | x :: h, 0, c, d, hc => by
    simp at hc; subst hc
    rw [List.set_cons_zero, Heap.refs_cons, Heap.refs_cons]
    simp only [List.length_append]; omega
  | x :: h, a + 1, c, d, hc => by
    simp at hc
    have := refs_set_length h a c d hc
    rw [List.set_cons_succ, Heap.refs_cons, Heap.refs_cons]
    simp only [List.length_append]; omega

theorem get_set {h : Heap} {a : Nat} {c : Option Obj} (hc : h[a]? = some c) (b : Nat) (d : Option Obj) :
    (h.set a d)[b]? = if b = a then some d else h[b]? := by
  rw [List.getElem?_set]
  have hl : a < h.length := (List.getElem?_eq_some_iff.mp hc).1
  by_cases e : a = b
  · subst e; rw [if_pos rfl, if_pos rfl, if_pos hl]
  · rw [if_neg e, if_neg (fun x => e x.symm)]

theorem set_count {vars : List Ptr} {x : Nat} {old : Ptr} (hx : vars[x]? = some old) (p : Ptr) (q : Ptr) :
    (vars.set x p).count q + [old].count q = vars.count q + [p].count q := by
  induction vars generalizing x with
  | nil => simp at hx
  | cons v vs ih =>
    cases x with
    | zero =>
      simp at hx; subst hx
      simp only [List.set_cons_zero, List.count_cons, List.count_nil]; omega
    | succ x =>
      simp at hx
      have := ih hx
      simp only [List.set_cons_succ, List.count_cons, List.count_nil] at *; omega

/-- Every counter plus the number of references not yet counted (`less`) is the number of references. -/
structure Inv (h : Heap) (less roots : List Ptr) : Prop where
  exact : ∀ a : Nat, cnt h[a]? + less.count (some a) = roots.count (some a) + h.refs.count (some a)
  pos : ∀ (a : Nat) (c : Obj), h[a]? = some (some c) → 0 < c.count

theorem Inv.perm {h : Heap} {l l' r r' : List Ptr} (i : Inv h l r)
    (hp : ∀ a : Nat, l.count (some a) + r'.count (some a) = l'.count (some a) + r.count (some a)) : Inv h l' r' :=
  ⟨fun a => by have := hp a; have := i.exact a; omega, i.pos⟩

theorem Inv.alive {h : Heap} {r : List Ptr} (i : Inv h [] r) {a : Nat} (ha : some a ∈ r ∨ some a ∈ h.refs) :
    ∃ c, h[a]? = some (some c) := by
  have := i.exact a
  simp only [List.count_nil] at this
  have hpos : 0 < cnt h[a]? := by
    rcases ha with ha | ha
    · have := List.count_pos_iff.mpr ha; omega
    · have := List.count_pos_iff.mpr ha; omega
  unfold cnt at hpos
  split at hpos
  · rename_i c hc; exact ⟨c, hc⟩
  · omega

theorem Inv.update {h : Heap} {l l' r r' : List Ptr} (i : Inv h l r) {a : Nat} {c d : Obj} (hc : h[a]? = some (some c))
    (hd : 0 < d.count)
    (hn : ∀ b : Nat, r'.count (some b) + d.fields.count (some b) + (if b = a then c.count else 0) + l.count (some b) =
      r.count (some b) + c.fields.count (some b) + (if b = a then d.count else 0) + l'.count (some b)) :
    Inv (h.set a (some d)) l' r' := by
  refine ⟨fun b => ?_, fun b x hx => ?_⟩
  · have h1 := refs_set (some b) h a _ (some d) hc
    have h2 := hn b
    have h3 := i.exact b
    rw [get_set hc]
    simp only [refsOf] at h1
    split
    · rename_i e; subst e
      rw [hc] at h3
      simp only [cnt, if_true] at *
      omega
    · rename_i e
      simp only [if_neg e] at h2
      omega
  · rw [get_set hc] at hx
    split at hx
    · injection hx with hx; injection hx with hx; subst hx; exact hd
    · exact i.pos b x hx

theorem count_cons_ite (a b : Nat) (r : List Ptr) :
    (some a :: r).count (some b) = r.count (some b) + if b = a then 1 else 0 := by
  rw [List.count_cons]
  by_cases e : b = a
  · subst e; simp
  · rw [if_neg e]
    have : ¬ (some a : Ptr) == some b := by simp; exact fun x => e x.symm
    simp [this]

/-- Same objects with the same fields. -/
def Same (h' h : Heap) : Prop :=
  h'.length = h.length ∧ ∀ a : Nat, h'[a]?.map (Option.map Obj.fields) = h[a]?.map (Option.map Obj.fields)

/-- One more use: it is counted, or the counter overflows. -/
theorem retain_spec {h : Heap} {l r : List Ptr} {p : Ptr} (i : Inv h (p :: l) r)
    (hp : ∀ a : Nat, p = some a → ∃ c, h[a]? = some (some c)) :
    (∃ h', retain h p = .ok h' ∧ Inv h' l r ∧ Same h' h) ∨ retain h p = .ub overflow := by
  cases p with
  | none =>
    exact Or.inl ⟨h, rfl, i.perm (fun a => by simp), rfl, fun _ => rfl⟩
  | some a =>
    obtain ⟨c, hc⟩ := hp a rfl
    unfold retain
    simp only [hc]
    by_cases hb : c.count + 1 < 2^31
    · refine Or.inl ⟨h.set a (some { c with count := c.count + 1 }), by rw [if_pos hb],
        i.update hc (Nat.succ_pos _) ?_, by simp, fun b => ?_⟩
      · intro b
        rw [count_cons_ite]
        dsimp only
        split <;> omega
      · rw [get_set hc]
        split
        · rename_i e; subst e; rw [hc]; rfl
        · rfl
    · exact Or.inr (by rw [if_neg hb])

/-- Every object of the second was in the first, with the same fields. -/
def Sub (h' h : Heap) : Prop :=
  h'.length = h.length ∧ ∀ (a : Nat) (c : Obj), h'[a]? = some (some c) →
    ∃ d : Obj, h[a]? = some (some d) ∧ d.fields = c.fields

theorem Sub.refl (h : Heap) : Sub h h := ⟨rfl, fun _ c hc => ⟨c, hc, rfl⟩⟩

theorem Sub.trans {h h' h'' : Heap} (x : Sub h'' h') (y : Sub h' h) : Sub h'' h :=
  ⟨x.1.trans y.1, fun a c hc => by
    obtain ⟨d, hd, e1⟩ := x.2 a c hc
    obtain ⟨d', hd', e1'⟩ := y.2 a d hd
    exact ⟨d', hd', e1'.trans e1⟩⟩

theorem refs_count_only {h : Heap} {a : Nat} {c d : Obj} (hc : h[a]? = some (some c)) (hf : d.fields = c.fields) :
    (Heap.refs (h.set a (some d))).length = h.refs.length := by
  have := refs_set_length h a _ (some d) hc
  simp only [refsOf, hf] at this
  omega

theorem Inv.delete {h : Heap} {r w : List Ptr} {a : Nat} {c : Obj} (i : Inv h [] (some a :: w ++ r))
    (hc : h[a]? = some (some c)) (h1 : c.count = 1) : Inv (h.set a none) [] (c.fields ++ w ++ r) := by
  refine ⟨fun b => ?_, fun b x hx => ?_⟩
  · have h2 := refs_set (some b) h a _ none hc
    have h3 := i.exact b
    rw [List.cons_append, count_cons_ite] at h3
    rw [get_set hc]
    simp only [refsOf, List.count_append, List.count_nil] at *
    split
    · rename_i e; subst e
      rw [hc] at h3
      simp only [cnt, if_true] at *
      omega
    · rename_i e
      simp only [if_neg e] at h3
      omega
  · rw [get_set hc] at hx
    split at hx
    · cases hx
    · exact i.pos b x hx

theorem Inv.decrement {h : Heap} {r w : List Ptr} {a : Nat} {c : Obj} (i : Inv h [] (some a :: w ++ r))
    (hc : h[a]? = some (some c)) (h1 : 1 < c.count) :
    Inv (h.set a (some { c with count := c.count - 1 })) [] (w ++ r) :=
  i.update hc (show 0 < c.count - 1 by omega) (fun b => by
    rw [List.cons_append, count_cons_ite]
    dsimp only
    split <;> omega)

/-- Ending lives: it ends, and nothing is followed after it is deleted. -/
theorem release_spec : ∀ (n : Nat) (h : Heap) (w r : List Ptr), Inv h [] (w ++ r) → h.refs.length + w.length ≤ n →
    ∃ h', release n h w = .ok h' ∧ Inv h' [] r ∧ Sub h' h
  | n, h, [], r, i, _ => ⟨h, by cases n <;> rfl, i, Sub.refl h⟩
  | 0, h, p :: w, r, i, hn => by simp at hn
  | n + 1, h, none :: w, r, i, hn => by
    obtain ⟨h', e, i', s⟩ := release_spec n h w r (i.perm (fun a => by simp)) (by simp at hn; omega)
    exact ⟨h', e, i', s⟩
  | n + 1, h, some a :: w, r, i, hn => by
    obtain ⟨c, hc⟩ := i.alive (a := a) (by simp)
    have hpos := i.pos a c hc
    simp only [List.length_cons] at hn
    simp only [release, hc]
    split
    · rename_i h1
      have hlen := refs_set_length h a _ none hc
      simp only [refsOf, List.length_nil] at hlen
      obtain ⟨h', e, i', s⟩ := release_spec n (h.set a none) (c.fields ++ w) r (i.delete hc h1) (by simp; omega)
      refine ⟨h', e, i', s.trans ⟨by simp, fun b d hd => ?_⟩⟩
      rw [get_set hc] at hd
      split at hd
      · cases hd
      · exact ⟨d, hd, rfl⟩
    · rename_i h1
      rw [if_neg (by omega)]
      obtain ⟨h', e, i', s⟩ := release_spec n (h.set a (some { c with count := c.count - 1 })) w r
        (i.decrement hc (by omega))
        (by rw [refs_count_only (d := { c with count := c.count - 1 }) hc rfl]; omega)
      refine ⟨h', e, i', s.trans ⟨by simp, fun b d hd => ?_⟩⟩
      rw [get_set hc] at hd
      split at hd
      · rename_i e; subst e
        injection hd with hd; injection hd with hd; subst hd
        exact ⟨c, hc, rfl⟩
      · exact ⟨d, hd, rfl⟩

/-- The fields of one object replaced. -/
def put (h : Heap) (b : Nat) (f : List Ptr) : Heap :=
  match h[b]? with
  | some (some c) => h.set b (some { c with fields := f })
  | _ => h

theorem put_get (h : Heap) (b : Nat) (f : List Ptr) (a : Nat) :
    (put h b f)[a]? = if a = b then h[a]?.map (Option.map fun c => { c with fields := f }) else h[a]? := by
  unfold put
  split
  · rename_i c hc
    rw [get_set hc]
    split
    · rename_i e; subst e; rw [hc]; rfl
    · rfl
  · rename_i hc
    split
    · rename_i e; subst e
      cases h1 : h[a]? with
      | none => rfl
      | some o =>
        cases o with
        | none => rfl
        | some c => exact absurd h1 (hc c)
    · rfl

theorem set_get (h : Heap) (a : Nat) (x : Option Obj) (b : Nat) :
    (h.set a x)[b]? = if b = a then (if a < h.length then some x else none) else h[b]? := by
  rw [List.getElem?_set]
  by_cases e : a = b
  · subst e; simp
  · rw [if_neg e, if_neg (fun x => e x.symm)]

theorem put_length (h : Heap) (b : Nat) (f : List Ptr) : (put h b f).length = h.length := by
  unfold put
  split <;> simp

theorem put_set_ne {h : Heap} {a b : Nat} (f : List Ptr) (x : Option Obj) (hab : a ≠ b) :
    put (h.set a x) b f = (put h b f).set a x := by
  apply List.ext_getElem?
  intro i
  rw [put_get, set_get, set_get, put_get, put_length]
  by_cases e : i = b
  · rw [if_pos e, if_neg (by omega), if_neg (by omega), if_pos e]
  · rw [if_neg e, if_neg e]

theorem put_set_eq {h : Heap} {b : Nat} (f : List Ptr) (c : Obj) :
    put (h.set b (some c)) b f = (put h b f).set b (some { c with fields := f }) := by
  apply List.ext_getElem?
  intro i
  rw [put_get, set_get, set_get, put_get, put_length]
  by_cases e : i = b
  · simp only [if_pos e]
    split <;> rfl
  · simp only [if_neg e]

/-- An object that is held is not touched but for its counter, so that its fields do not matter. -/
theorem release_put {b : Nat} (f : List Ptr) : ∀ (n : Nat) (h : Heap) (w r : List Ptr), Inv h [] (w ++ r) → some b ∈ r →
    ∀ h', release n h w = .ok h' → release n (put h b f) w = .ok (put h' b f)
  | n, h, [], r, i, hb, h', e => by
    have : h = h' := by cases n <;> (injection e)
    subst this
    cases n <;> rfl
  | 0, h, p :: w, r, i, hb, h', e => by cases e
  | n + 1, h, none :: w, r, i, hb, h', e => by
    exact release_put f n h w r (i.perm (fun a => by simp)) hb h' e
  | n + 1, h, some a :: w, r, i, hb, h', e => by
    obtain ⟨c, hc⟩ := i.alive (a := a) (by simp)
    have hpos := i.pos a c hc
    simp only [release, hc] at e
    by_cases hab : a = b
    · subst hab
      have h2 : 1 < c.count := by
        have := i.exact a
        rw [hc, List.cons_append, count_cons_ite, List.count_append] at this
        have := List.count_pos_iff.mpr hb
        simp only [cnt, List.count_nil, if_true] at *
        omega
      rw [if_neg (by omega), if_neg (by omega)] at e
      have := release_put f n _ w r (i.decrement hc h2) hb h' e
      have hg : (put h a f)[a]? = some (some { c with fields := f }) := by
        rw [put_get, if_pos rfl, hc]; rfl
      simp only [release, hg]
      rw [if_neg (by omega), if_neg (by omega)]
      rw [put_set_eq] at this
      exact this
    · have hg : (put h b f)[a]? = some (some c) := by
        rw [put_get, if_neg hab, hc]
      simp only [release, hg]
      split at e
      · rename_i h1
        rw [if_pos h1, ← put_set_ne f _ hab]
        exact release_put f n _ (c.fields ++ w) r (i.delete hc h1) hb h' e
      · rename_i h1
        rw [if_neg h1]
        rw [if_neg (by omega)] at e ⊢
        rw [← put_set_ne f _ hab]
        exact release_put f n _ w r (i.decrement hc (by omega)) hb h' e

/-! ### Locations -/

/-- What the location contains. -/
def At (s : St) (v : Ptr) : Loc → Prop
  | .var x => s.vars[x]? = some v
  | .cell a k => ∃ c, s.heap[a]? = some (some c) ∧ c.fields[k]? = some v

/-- A variable refers to its object. -/
def Held (s : St) : Loc → Prop
  | .var _ => True
  | .cell a _ => some a ∈ s.vars

theorem At.read {s : St} {v : Ptr} {l : Loc} (h : At s v l) : s.read l = .ok v := by
  cases l with
  | var x => simp only [At] at h; simp only [St.read, h]
  | cell a k => obtain ⟨c, h1, h2⟩ := h; simp only [St.read, h1, h2]

theorem At.func {s : St} {v v' : Ptr} {l : Loc} (h : At s v l) (h' : At s v' l) : v = v' := by
  have := h.read
  rw [h'.read] at this
  injection this with e
  exact e.symm

theorem At.mem {s : St} {v : Ptr} {l : Loc} (h : At s v l) : v ∈ s.vars ∨ v ∈ s.heap.refs := by
  cases l with
  | var x => exact Or.inl (List.mem_of_getElem? h)
  | cell a k =>
    obtain ⟨c, h1, h2⟩ := h
    refine Or.inr (List.mem_flatMap.mpr ⟨some c, List.mem_of_getElem? h1, List.mem_of_getElem? h2⟩)

/-- The state with a location changed. -/
def upd (s : St) (v : Ptr) : Loc → St
  | .var x => { s with vars := s.vars.set x v }
  | .cell a k =>
    match s.heap[a]? with
    | some (some c) => { s with heap := s.heap.set a (some { c with fields := c.fields.set k v }) }
    | _ => s

theorem At.write {s : St} {v : Ptr} {l : Loc} (h : At s v l) (q : Ptr) : s.write q l = .ok (upd s q l) := by
  cases l with
  | var x =>
    simp only [At] at h
    have hl := (List.getElem?_eq_some_iff.mp h).1
    simp only [St.write, if_pos hl, upd]
  | cell a k => obtain ⟨c, h1, h2⟩ := h; simp only [St.write, h1, upd]

theorem At.upd_inv {s : St} {v : Ptr} {l : Loc} (h : At s v l) (q : Ptr) {less less' : List Ptr}
    (i : Inv s.heap less s.vars)
    (hl : ∀ a : Nat, less'.count (some a) + [v].count (some a) = less.count (some a) + [q].count (some a)) :
    Inv (upd s q l).heap less' (upd s q l).vars := by
  cases l with
  | var x =>
    refine ⟨fun a => ?_, i.pos⟩
    have h1 := i.exact a
    have h2 := set_count h q (some a)
    have h3 := hl a
    dsimp only [upd]
    omega
  | cell a k =>
    obtain ⟨c, h1, h2⟩ := h
    simp only [upd, h1]
    refine i.update h1 (i.pos a c h1) (fun b => ?_)
    have h3 := set_count h2 q (some b)
    have h4 := hl b
    dsimp only
    omega

theorem At.upd_self {s : St} {v : Ptr} {l : Loc} (h : At s v l) (q : Ptr) : At (upd s q l) q l := by
  cases l with
  | var x =>
    simp only [At] at h
    have hl := (List.getElem?_eq_some_iff.mp h).1
    simp only [At, upd, List.getElem?_set, if_pos hl, if_true]
  | cell a k =>
    obtain ⟨c, h1, h2⟩ := h
    have hl := (List.getElem?_eq_some_iff.mp h2).1
    simp only [At, upd, h1]
    refine ⟨{ c with fields := c.fields.set k q }, by rw [get_set h1, if_pos rfl], ?_⟩
    simp only [List.getElem?_set, if_pos hl, if_true]

theorem At.upd_other {s : St} {v v' : Ptr} {l l' : Loc} (h : At s v l) (q : Ptr) (hne : l' ≠ l) (h' : At s v' l') :
    At (upd s q l) v' l' := by
  cases l with
  | var x =>
    cases l' with
    | var y =>
      have : x ≠ y := fun e => hne (by rw [e])
      simp only [At, upd] at h' ⊢
      rw [List.getElem?_set, if_neg this]
      exact h'
    | cell a k => exact h'
  | cell a k =>
    obtain ⟨c, h1, h2⟩ := h
    simp only [upd, h1]
    cases l' with
    | var y => exact h'
    | cell b j =>
      obtain ⟨d, h3, h4⟩ := h'
      simp only [At]
      rw [get_set h1]
      by_cases e : b = a
      · subst e
        have : k ≠ j := fun e => hne (by rw [e])
        rw [h1] at h3
        injection h3 with h3; injection h3 with h3; subst h3
        refine ⟨_, by rw [if_pos rfl], ?_⟩
        rw [List.getElem?_set, if_neg this]
        exact h4
      · rw [if_neg e]
        exact ⟨d, h3, h4⟩

/-- The variables that remain when a location is overwritten. -/
def kept (s : St) : Loc → List Ptr
  | .var x => s.vars.set x none
  | .cell _ _ => s.vars

/-- Giving up what a location refers to: until the location is overwritten it refers to nothing that counts. -/
theorem drop_loc {s : St} {old : Ptr} {lt : Loc} (i : Inv s.heap [] s.vars) (hat : At s old lt) (hheld : Held s lt) :
    ∃ h', drop s.heap old = .ok h' ∧ ∃ s0 : St, Inv s0.heap [] s0.vars ∧ At s0 none lt ∧ s0.vars = kept s lt ∧
      (∀ q, St.write { s with heap := h' } q lt = .ok (upd s0 q lt)) ∧
      (∀ (l : Loc) (v : Ptr), l ≠ lt → At s v l → (∀ a k, l = .cell a k → some a ∈ kept s lt) →
        At { s with heap := h' } v l ∧ At s0 v l) := by
  cases lt with
  | var x =>
    have hx : s.vars[x]? = some old := hat
    obtain ⟨h', e, i', sub⟩ := release_spec (s.heap.refs.length + 1) s.heap [old] (s.vars.set x none)
      (i.perm (fun a => by
        have := set_count hx none (some a)
        rw [List.count_append]
        simp only [List.count_nil, List.count_cons] at *
        simp at this ⊢
        omega)) (by simp)
    refine ⟨h', e, ⟨h', s.vars.set x none⟩, i', ?_, rfl, ?_, ?_⟩
    · have hl := (List.getElem?_eq_some_iff.mp hx).1
      simp only [At, List.getElem?_set, if_pos hl, if_true]
    · intro q
      have hl := (List.getElem?_eq_some_iff.mp hx).1
      simp only [St.write, if_pos hl, upd, List.set_set]
    · intro l v hne hl hk
      cases l with
      | var y =>
        have : x ≠ y := fun e => hne (by rw [e])
        refine ⟨hl, ?_⟩
        simp only [At] at hl ⊢
        rw [List.getElem?_set, if_neg this]
        exact hl
      | cell b j =>
        obtain ⟨d, h3, h4⟩ := hl
        obtain ⟨c, hc⟩ := i'.alive (Or.inl (hk b j rfl))
        obtain ⟨d', hd, ef⟩ := sub.2 b c hc
        rw [h3] at hd
        injection hd with hd; injection hd with hd; subst hd
        exact ⟨⟨c, hc, ef ▸ h4⟩, ⟨c, hc, ef ▸ h4⟩⟩
  | cell a k =>
    have hat' := hat
    obtain ⟨c, h1, h2⟩ := hat
    have hkl := (List.getElem?_eq_some_iff.mp h2).1
    -- the location set to null
    let h0 : Heap := s.heap.set a (some { c with fields := c.fields.set k none })
    have g0 : h0[a]? = some (some { c with fields := c.fields.set k none }) := by
      show (s.heap.set _ _)[a]? = _
      rw [get_set h1, if_pos rfl]
    have i0 : Inv h0 [] ([old] ++ s.vars) := by
      refine i.update h1 (i.pos a c h1) (fun b => ?_)
      have := set_count h2 none (some b)
      rw [List.count_append]
      simp only [List.count_nil, List.count_cons] at *
      simp at this ⊢
      omega
    have hlen : h0.refs.length = s.heap.refs.length := by
      have := refs_set_length s.heap a _ (some { c with fields := c.fields.set k none }) h1
      simp only [refsOf, List.length_set] at this
      show (Heap.refs (s.heap.set _ _)).length = _
      omega
    obtain ⟨h', e, i', sub⟩ := release_spec (s.heap.refs.length + 1) h0 [old] s.vars i0 (by rw [hlen]; simp)
    have hput : put h0 a c.fields = s.heap := by
      apply List.ext_getElem?
      intro j
      rw [put_get]
      by_cases ej : j = a
      · subst ej; rw [if_pos rfl, g0, h1]; rfl
      · rw [if_neg ej]
        show (s.heap.set _ _)[j]? = _
        rw [get_set h1, if_neg ej]
    have e2 := release_put c.fields _ h0 [old] s.vars i0 hheld h' e
    rw [hput] at e2
    obtain ⟨c', hc'⟩ := i'.alive (a := a) (Or.inl hheld)
    have hcf : c'.fields = c.fields.set k none := by
      obtain ⟨d, hd, ef⟩ := sub.2 a c' hc'
      rw [g0] at hd
      injection hd with hd; injection hd with hd; subst hd
      exact ef.symm
    have hpg : (put h' a c.fields)[a]? = some (some { c' with fields := c.fields }) := by
      rw [put_get, if_pos rfl, hc']; rfl
    refine ⟨put h' a c.fields, e2, ⟨h', s.vars⟩, i', ⟨c', hc', ?_⟩, rfl, ?_, ?_⟩
    · rw [hcf]
      simp only [List.getElem?_set, if_pos hkl, if_true]
    · intro q
      simp only [St.write, hpg, upd, hc', hcf, List.set_set]
      have : (put h' a c.fields).set a (some ⟨c'.count, c.fields.set k q⟩)
          = h'.set a (some ⟨c'.count, c.fields.set k q⟩) := by
        apply List.ext_getElem?
        intro j
        rw [set_get, set_get, put_get, put_length]
        by_cases ej : j = a
        · rw [if_pos ej, if_pos ej]
        · rw [if_neg ej, if_neg ej, if_neg ej]
      rw [this]
    · intro l v hne hl hk
      cases l with
      | var y => exact ⟨hl, hl⟩
      | cell b j =>
        obtain ⟨d, h3, h4⟩ := hl
        obtain ⟨cb, hcb⟩ := i'.alive (Or.inl (hk b j rfl))
        obtain ⟨d', hd, ef⟩ := sub.2 b cb hcb
        by_cases eb : b = a
        · subst eb
          have hkj : k ≠ j := fun e => hne (by rw [e])
          rw [h1] at h3
          injection h3 with h3; injection h3 with h3; subst h3
          refine ⟨⟨_, hpg, h4⟩, ⟨c', hc', ?_⟩⟩
          rw [hcf, List.getElem?_set, if_neg hkj]
          exact h4
        · have hd' : s.heap[b]? = some (some d') := by
            have : h0[b]? = s.heap[b]? := by
              show (s.heap.set _ _)[b]? = _
              rw [get_set h1, if_neg eb]
            rw [← this]; exact hd
          rw [h3] at hd'
          injection hd' with hd'; injection hd' with hd'; subst hd'
          refine ⟨⟨cb, ?_, ef ▸ h4⟩, ⟨cb, hcb, ef ▸ h4⟩⟩
          show (put h' a c.fields)[b]? = _
          rw [put_get, if_neg eb]
          exact hcb

end Ab.RcG
