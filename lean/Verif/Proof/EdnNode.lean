import Verif.Spec.Edn
/-! Proofs about EDN node equality and hashing. -/
namespace Ab.Edn

open Spec

/-- Structural induction over trees. -/
theorem Node.ind {P : Node → Prop} (nil : P .nil) (bool : ∀ b, P (.bool b)) (int : ∀ v, P (.int v))
    (real : ∀ v, P (.real v)) (sym : ∀ i, P (.sym i)) (kw : ∀ i, P (.kw i)) (chr : ∀ c, P (.chr c))
    (str : ∀ s, P (.str s)) (list : ∀ xs, (∀ x ∈ xs, P x) → P (.list xs))
    (vec : ∀ xs, (∀ x ∈ xs, P x) → P (.vec xs))
    (map : ∀ es, (∀ e ∈ es, P e.1 ∧ P e.2) → P (.map es)) : ∀ n, P n := by
  have key : ∀ (k : Nat) (n : Node), sizeOf n < k → P n := by
    intro k
    induction k with
    | zero => intro n h; omega
    | succ k ih =>
      intro n h
      cases n with
      | nil => exact nil
      | bool b => exact bool b
      | int v => exact int v
      | real v => exact real v
      | sym i => exact sym i
      | kw i => exact kw i
      | chr c => exact chr c
      | str s => exact str s
      | list xs =>
        apply list
        intro x hx
        apply ih
        have := List.sizeOf_lt_of_mem hx
        simp at h; omega
      | vec xs =>
        apply vec
        intro x hx
        apply ih
        have := List.sizeOf_lt_of_mem hx
        simp at h; omega
      | map es =>
        apply map
        intro e he
        have h1 := List.sizeOf_lt_of_mem he
        obtain ⟨k', v'⟩ := e
        simp at h h1
        constructor
        · apply ih; simp only; omega
        · apply ih; simp only; omega
  intro n
  exact key (sizeOf n + 1) n (by omega)

/-- The test `unordered_map` applies to a key. -/
def keyM (L : Lib) (a b : Node) : Bool := sameHash L a b && Node.eq L a b

theorem sameHash_iff {L : Lib} {a b : Node} :
    sameHash L a b = true ↔ ∃ h, Node.hash L a = .ok h ∧ Node.hash L b = .ok h := by
  unfold sameHash
  cases ha : Node.hash L a <;> cases hb : Node.hash L b <;> simp
  exact eq_comm

theorem sameHash_symm {L : Lib} {a b : Node} (h : sameHash L a b = true) : sameHash L b a = true := by
  rw [sameHash_iff] at *
  obtain ⟨x, h1, h2⟩ := h; exact ⟨x, h2, h1⟩

theorem sameHash_trans {L : Lib} {a b c : Node} (h : sameHash L a b = true) (h' : sameHash L b c = true) :
    sameHash L a c = true := by
  rw [sameHash_iff] at *
  obtain ⟨x, h1, h2⟩ := h; obtain ⟨y, h3, h4⟩ := h'
  rw [h2] at h3; cases h3
  exact ⟨_, h1, h4⟩

theorem keyM_iff {L : Lib} {a b : Node} : keyM L a b = true ↔ sameHash L a b = true ∧ Node.eq L a b = true := by
  simp [keyM]

/-- Relating lists entry by entry. -/
inductive F2 (R : α → β → Prop) : List α → List β → Prop
  | nil : F2 R [] []
  | cons {x y xs ys} : R x y → F2 R xs ys → F2 R (x :: xs) (y :: ys)

theorem F2.length {R : α → β → Prop} {xs ys} (h : F2 R xs ys) : xs.length = ys.length := by
  induction h with
  | nil => rfl
  | cons _ _ ih => simp [ih]

theorem F2.left {R : α → β → Prop} {xs ys} (h : F2 R xs ys) : ∀ x ∈ xs, ∃ y ∈ ys, R x y := by
  induction h with
  | nil => intro x hx; cases hx
  | cons hr _ ih =>
    intro x hx
    rcases List.mem_cons.mp hx with h | h
    · subst h; exact ⟨_, by simp, hr⟩
    · obtain ⟨y, hy, h⟩ := ih x h; exact ⟨y, by simp [hy], h⟩

theorem F2.right {R : α → β → Prop} {xs ys} (h : F2 R xs ys) : ∀ y ∈ ys, ∃ x ∈ xs, R x y := by
  induction h with
  | nil => intro x hx; cases hx
  | cons hr _ ih =>
    intro x hx
    rcases List.mem_cons.mp hx with h | h
    · subst h; exact ⟨_, by simp, hr⟩
    · obtain ⟨y, hy, h⟩ := ih x h; exact ⟨y, by simp [hy], h⟩

theorem F2.mono {R S : α → β → Prop} {xs ys} (h : F2 R xs ys) (hm : ∀ x ∈ xs, ∀ y ∈ ys, R x y → S x y) :
    F2 S xs ys := by
  induction h with
  | nil => exact .nil
  | cons hr _ ih =>
    exact .cons (hm _ (by simp) _ (by simp) hr) (ih (fun x hx y hy => hm x (by simp [hx]) y (by simp [hy])))

/-- Pigeonhole: a relation that sends every element of `es` into `fs`, no two to the same, is a matching
of `es` with a rearrangement of `fs` when the lengths agree. -/
theorem pigeon {R : α → β → Prop} : ∀ {es : List α} {fs : List β}, es.length = fs.length →
    (∀ e ∈ es, ∃ f ∈ fs, R e f) → es.Pairwise (fun a b => ∀ f, R a f → R b f → False) →
    ∃ gs, gs.Perm fs ∧ F2 R es gs := by
  intro es
  induction es with
  | nil =>
    intro fs hl _ _
    have : fs = [] := List.length_eq_zero_iff.mp (by simpa using hl.symm)
    subst this
    exact ⟨[], .refl _, .nil⟩
  | cons e es ih =>
    intro fs hl h1 h2
    obtain ⟨f, hf, hr⟩ := h1 e (by simp)
    obtain ⟨A, B, hab⟩ := List.append_of_mem hf
    rw [List.pairwise_cons] at h2
    obtain ⟨gs, hp, hm⟩ := ih (fs := A ++ B) (by rw [hab] at hl; simp at hl ⊢; omega)
      (by
        intro x hx
        obtain ⟨g, hg, hxg⟩ := h1 x (by simp [hx])
        refine ⟨g, ?_, hxg⟩
        rw [hab] at hg
        simp only [List.mem_append, List.mem_cons] at hg ⊢
        rcases hg with h | h | h
        · exact Or.inl h
        · subst h; exact absurd hxg (fun hh => h2.1 x hx g hr hh)
        · exact Or.inr h) h2.2
    refine ⟨f :: gs, ?_, .cons hr hm⟩
    rw [hab]
    exact ((hp.cons f).trans List.perm_middle.symm)

theorem eqList_iff {L : Lib} {xs ys : List Node} :
    eqList L xs ys = true ↔ F2 (fun x y => Node.eq L x y = true) xs ys := by
  induction xs generalizing ys with
  | nil =>
    cases ys with
    | nil => simp [eqList]; exact .nil
    | cons y ys => simp [eqList]; intro h; cases h
  | cons x xs ih =>
    cases ys with
    | nil => simp [eqList]; intro h; cases h
    | cons y ys =>
      simp only [eqList, Bool.and_eq_true, ih]
      constructor
      · rintro ⟨h1, h2⟩; exact .cons h1 h2
      · intro h; cases h with | cons h1 h2 => exact ⟨h1, h2⟩

theorem eqEntries_iff {L : Lib} {es fs : List Entry} :
    eqEntries L es fs = true ↔ ∀ e ∈ es, ∃ f, findKey L fs e.1 = some f ∧ Node.eq L e.2 f.2 = true := by
  induction es with
  | nil => simp [eqEntries]
  | cons e es ih =>
    simp only [eqEntries, Bool.and_eq_true, ih, List.mem_cons, forall_eq_or_imp]
    refine and_congr ?_ Iff.rfl
    obtain ⟨k, v⟩ := e
    simp only [eqEntry]
    show (match findKey L fs k with | none => false | some f => Node.eq L v f.2) = true ↔ _
    cases findKey L fs k <;> simp

theorem eq_map_iff {L : Lib} {es fs : List Entry} :
    Node.eq L (.map es) (.map fs) = true ↔ es.length = fs.length ∧
      ∀ e ∈ es, ∃ f, findKey L fs e.1 = some f ∧ Node.eq L e.2 f.2 = true := by
  simp only [Node.eq, Bool.and_eq_true, beq_iff_eq, eqEntries_iff]

theorem findKey_some {L : Lib} {fs : List Entry} {k : Node} {f : Entry} (h : findKey L fs k = some f) :
    f ∈ fs ∧ keyM L k f.1 = true := ⟨List.mem_of_find?_eq_some h, by simpa [keyM] using List.find?_some h⟩

theorem findKey_of {L : Lib} {fs : List Entry} {k : Node} {f : Entry} (hf : f ∈ fs)
    (h : keyM L k f.1 = true) : ∃ f', findKey L fs k = some f' := by
  cases hh : findKey L fs k with
  | some f' => exact ⟨f', rfl⟩
  | none =>
    have := List.find?_eq_none.mp hh f hf
    exact absurd (by simpa [keyM] using h) this

theorem findKey_none {L : Lib} {fs : List Entry} {k : Node} (h : findKey L fs k = none) :
    ∀ f ∈ fs, keyM L k f.1 = false := by
  intro f hf
  have := List.find?_eq_none.mp h f hf
  simpa [keyM] using this

/-- Entries with pairwise different keys. -/
def Distinct (L : Lib) (es : List Entry) : Prop := es.Pairwise (fun a b => keyM L a.1 b.1 = false)

/-- Every map in the tree has distinct, hashable keys. -/
def WF (L : Lib) (n : Node) : Prop := ∀ es, Sub (.map es) n → Distinct L es ∧
  ∀ e ∈ es, ∃ h, Node.hash L e.1 = .ok h

theorem WF.list {L xs} (w : WF L (.list xs)) {x} (h : x ∈ xs) : WF L x := fun es he => w es (.list h he)
theorem WF.vec {L xs} (w : WF L (.vec xs)) {x} (h : x ∈ xs) : WF L x := fun es he => w es (.vec h he)
theorem WF.key {L es} (w : WF L (.map es)) {e} (h : e ∈ es) : WF L e.1 := fun fs he => w fs (.key h he)
theorem WF.val {L es} (w : WF L (.map es)) {e} (h : e ∈ es) : WF L e.2 := fun fs he => w fs (.val h he)
theorem WF.distinct {L es} (w : WF L (.map es)) : Distinct L es := (w es (.refl _)).1
theorem WF.hash {L es} (w : WF L (.map es)) {e} (h : e ∈ es) : ∃ x, Node.hash L e.1 = .ok x :=
  (w es (.refl _)).2 e h

theorem Distinct.uniq {L : Lib} {gs : List Entry} (d : Distinct L gs) {a b : Entry} (ha : a ∈ gs) (hb : b ∈ gs)
    (h1 : keyM L a.1 b.1 = true) (h2 : keyM L b.1 a.1 = true) : a = b := by
  induction gs with
  | nil => cases ha
  | cons g gs ih =>
    have d' := List.pairwise_cons.mp d
    rcases List.mem_cons.mp ha with ha | ha <;> rcases List.mem_cons.mp hb with hb | hb
    · rw [ha, hb]
    · have := d'.1 b hb; rw [← ha, h1] at this; cases this
    · have := d'.1 a ha; rw [← hb, h2] at this; cases this
    · exact ih d'.2 ha hb

theorem dblEq_symm {a b : U64} (h : dblEq a b = true) : dblEq b a = true := by
  unfold dblEq at *
  simp only [Bool.and_eq_true, Bool.or_eq_true, beq_iff_eq, Bool.not_eq_true'] at *
  obtain ⟨⟨h1, h2⟩, h3⟩ := h
  refine ⟨⟨h2, h1⟩, ?_⟩
  rcases h3 with h3 | ⟨h3, h4⟩
  · exact Or.inl h3.symm
  · exact Or.inr ⟨h4, h3⟩

theorem dblEq_trans {a b c : U64} (h : dblEq a b = true) (h' : dblEq b c = true) : dblEq a c = true := by
  unfold dblEq at *
  simp only [Bool.and_eq_true, Bool.or_eq_true, beq_iff_eq, Bool.not_eq_true'] at *
  obtain ⟨⟨h1, h2⟩, h3⟩ := h
  obtain ⟨⟨h4, h5⟩, h6⟩ := h'
  refine ⟨⟨h1, h5⟩, ?_⟩
  rcases h3 with h3 | ⟨h3, h3'⟩ <;> rcases h6 with h6 | ⟨h6, h6'⟩
  · exact Or.inl (h3.trans h6)
  · exact Or.inr ⟨by rw [h3]; exact h6, h6'⟩
  · exact Or.inr ⟨h3, by rw [← h6]; exact h3'⟩
  · exact Or.inr ⟨h3, h6'⟩

/-- Symmetry, transitivity and the Euclidean property at one tree. -/
structure Eqv (L : Lib) (a : Node) : Prop where
  symm : ∀ b, WF L a → WF L b → Node.eq L a b = true → Node.eq L b a = true
  trans : ∀ b c, WF L a → WF L b → WF L c → Node.eq L a b = true → Node.eq L b c = true →
    Node.eq L a c = true
  eucl : ∀ b c, WF L a → WF L b → WF L c → Node.eq L a b = true → Node.eq L a c = true →
    Node.eq L b c = true

theorem F2.symm_eq {L : Lib} {xs ys : List Node} (h : F2 (fun x y => Node.eq L x y = true) xs ys)
    (ih : ∀ x ∈ xs, Eqv L x) (wx : ∀ x ∈ xs, WF L x) (wy : ∀ y ∈ ys, WF L y) :
    F2 (fun x y => Node.eq L x y = true) ys xs := by
  induction h with
  | nil => exact .nil
  | cons hr _ ih' =>
    exact .cons ((ih _ (by simp)).symm _ (wx _ (by simp)) (wy _ (by simp)) hr)
      (ih' (fun x hx => ih x (by simp [hx])) (fun x hx => wx x (by simp [hx])) (fun x hx => wy x (by simp [hx])))

theorem F2.trans_eq {L : Lib} {xs ys zs : List Node} (h : F2 (fun x y => Node.eq L x y = true) xs ys)
    (h' : F2 (fun x y => Node.eq L x y = true) ys zs)
    (ih : ∀ x ∈ xs, Eqv L x) (wx : ∀ x ∈ xs, WF L x) (wy : ∀ y ∈ ys, WF L y) (wz : ∀ y ∈ zs, WF L y) :
    F2 (fun x y => Node.eq L x y = true) xs zs := by
  induction h generalizing zs with
  | nil => cases h'; exact .nil
  | cons hr _ ih' =>
    cases h' with
    | cons hr' h' =>
    exact .cons ((ih _ (by simp)).trans _ _ (wx _ (by simp)) (wy _ (by simp)) (wz _ (by simp)) hr hr')
      (ih' h' (fun x hx => ih x (by simp [hx])) (fun x hx => wx x (by simp [hx]))
        (fun x hx => wy x (by simp [hx])) (fun x hx => wz x (by simp [hx])))

theorem F2.eucl_eq {L : Lib} {xs ys zs : List Node} (h : F2 (fun x y => Node.eq L x y = true) xs ys)
    (h' : F2 (fun x y => Node.eq L x y = true) xs zs)
    (ih : ∀ x ∈ xs, Eqv L x) (wx : ∀ x ∈ xs, WF L x) (wy : ∀ y ∈ ys, WF L y) (wz : ∀ y ∈ zs, WF L y) :
    F2 (fun x y => Node.eq L x y = true) ys zs := by
  induction h generalizing zs with
  | nil => cases h'; exact .nil
  | cons hr _ ih' =>
    cases h' with
    | cons hr' h' =>
    exact .cons ((ih _ (by simp)).eucl _ _ (wx _ (by simp)) (wy _ (by simp)) (wz _ (by simp)) hr hr')
      (ih' h' (fun x hx => ih x (by simp [hx])) (fun x hx => wx x (by simp [hx]))
        (fun x hx => wy x (by simp [hx])) (fun x hx => wz x (by simp [hx])))

/-- How an entry of one map matches one of the other. -/
def Mt (L : Lib) (e f : Entry) : Prop := keyM L e.1 f.1 = true ∧ Node.eq L e.2 f.2 = true

/-- Equal maps have matching entries. -/
theorem map_matching {L : Lib} {es fs : List Entry} (ih : ∀ e ∈ es, Eqv L e.1 ∧ Eqv L e.2)
    (wa : WF L (.map es)) (wb : WF L (.map fs)) (h : Node.eq L (.map es) (.map fs) = true) :
    ∃ gs, gs.Perm fs ∧ F2 (Mt L) es gs := by
  obtain ⟨hl, hf⟩ := eq_map_iff.mp h
  obtain ⟨gs, hp, hm⟩ := pigeon (R := fun e f => f ∈ fs ∧ e ∈ es ∧ Mt L e f) hl
    (by
      intro e he
      obtain ⟨f, h1, h2⟩ := hf e he
      obtain ⟨h3, h4⟩ := findKey_some h1
      exact ⟨f, h3, h3, he, h4, h2⟩)
    (by
      apply List.Pairwise.imp_of_mem _ wa.distinct
      intro a b ha hb hab f hfa hfb
      obtain ⟨hff, -, h1, -⟩ := hfa
      obtain ⟨-, -, h2, -⟩ := hfb
      rw [keyM_iff] at h1 h2
      have hwf := wb.key hff
      have hba := (ih b hb).1.symm _ (wa.key hb) hwf h2.2
      have := (ih a ha).1.trans _ _ (wa.key ha) hwf (wa.key hb) h1.2 hba
      have hk : keyM L a.1 b.1 = true := keyM_iff.mpr ⟨sameHash_trans h1.1 (sameHash_symm h2.1), this⟩
      rw [hab] at hk; cases hk)
  exact ⟨gs, hp, hm.mono (fun _ _ _ _ h => h.2.2)⟩

/-- A found key's entry is the only one that matches. -/
theorem findKey_eq {L : Lib} {gs : List Entry} {k : Node} {g : Entry} (d : Distinct L gs) (hg : g ∈ gs)
    (hk : keyM L k g.1 = true)
    (hu : ∀ g' ∈ gs, keyM L k g'.1 = true → keyM L g.1 g'.1 = true ∧ keyM L g'.1 g.1 = true) :
    findKey L gs k = some g := by
  obtain ⟨g', hf⟩ := findKey_of hg hk
  obtain ⟨hm, hk'⟩ := findKey_some hf
  obtain ⟨h1, h2⟩ := hu g' hm hk'
  rw [hf, d.uniq hg hm h1 h2]

theorem eqv_leaf {L : Lib} {a : Node} (h : ∀ b, Node.eq L a b = true → b = a)
    (hr : Node.eq L a a = true) : Eqv L a :=
  ⟨fun b _ _ e => by rw [h b e]; exact hr,
   fun b c _ _ _ e e' => by rw [h b e] at e'; exact e',
   fun b c _ _ _ e e' => by rw [h b e]; exact e'⟩

/-- Symmetry, transitivity and the Euclidean property hold at every tree. -/
theorem eqv (L : Lib) : ∀ a, Eqv L a := by
  apply Node.ind
  · apply eqv_leaf
    · intro b h; cases b <;> simp [Node.eq] at h <;> rfl
    · simp [Node.eq]
  · intro x
    apply eqv_leaf
    · intro b h; cases b <;> simp [Node.eq] at h <;> rw [h]
    · simp [Node.eq]
  · intro x
    apply eqv_leaf
    · intro b h; cases b <;> simp [Node.eq] at h <;> rw [h]
    · simp [Node.eq]
  · intro x
    refine ⟨?_, ?_, ?_⟩
    · intro b _ _ h
      cases b <;> simp [Node.eq] at h ⊢
      exact dblEq_symm h
    · intro b c _ _ _ h h'
      cases b <;> simp [Node.eq] at h
      cases c <;> simp [Node.eq] at h' ⊢
      exact dblEq_trans h h'
    · intro b c _ _ _ h h'
      cases b <;> simp [Node.eq] at h
      cases c <;> simp [Node.eq] at h' ⊢
      exact dblEq_trans (dblEq_symm h) h'
  · intro x
    apply eqv_leaf
    · intro b h; cases b <;> simp [Node.eq] at h <;> rw [h]
    · simp [Node.eq]
  · intro x
    apply eqv_leaf
    · intro b h; cases b <;> simp [Node.eq] at h <;> rw [h]
    · simp [Node.eq]
  · intro x
    apply eqv_leaf
    · intro b h; cases b <;> simp [Node.eq] at h <;> rw [h]
    · simp [Node.eq]
  · intro x
    apply eqv_leaf
    · intro b h; cases b <;> simp [Node.eq] at h <;> rw [h]
    · simp [Node.eq]
  · intro xs ih
    refine ⟨?_, ?_, ?_⟩
    · intro b wa wb h
      cases b <;> simp [Node.eq] at h ⊢
      exact eqList_iff.mpr ((eqList_iff.mp h).symm_eq ih (fun _ hx => wa.list hx) (fun _ hx => wb.list hx))
    · intro b c wa wb wc h h'
      cases b <;> simp [Node.eq] at h
      cases c <;> simp [Node.eq] at h' ⊢
      exact eqList_iff.mpr ((eqList_iff.mp h).trans_eq (eqList_iff.mp h') ih (fun _ hx => wa.list hx)
        (fun _ hx => wb.list hx) (fun _ hx => wc.list hx))
    · intro b c wa wb wc h h'
      cases b <;> simp [Node.eq] at h
      cases c <;> simp [Node.eq] at h' ⊢
      exact eqList_iff.mpr ((eqList_iff.mp h).eucl_eq (eqList_iff.mp h') ih (fun _ hx => wa.list hx)
        (fun _ hx => wb.list hx) (fun _ hx => wc.list hx))
  · intro xs ih
    refine ⟨?_, ?_, ?_⟩
    · intro b wa wb h
      cases b <;> simp [Node.eq] at h ⊢
      exact eqList_iff.mpr ((eqList_iff.mp h).symm_eq ih (fun _ hx => wa.vec hx) (fun _ hx => wb.vec hx))
    · intro b c wa wb wc h h'
      cases b <;> simp [Node.eq] at h
      cases c <;> simp [Node.eq] at h' ⊢
      exact eqList_iff.mpr ((eqList_iff.mp h).trans_eq (eqList_iff.mp h') ih (fun _ hx => wa.vec hx)
        (fun _ hx => wb.vec hx) (fun _ hx => wc.vec hx))
    · intro b c wa wb wc h h'
      cases b <;> simp [Node.eq] at h
      cases c <;> simp [Node.eq] at h' ⊢
      exact eqList_iff.mpr ((eqList_iff.mp h).eucl_eq (eqList_iff.mp h') ih (fun _ hx => wa.vec hx)
        (fun _ hx => wb.vec hx) (fun _ hx => wc.vec hx))
  · intro es ih
    refine ⟨?_, ?_, ?_⟩
    · intro b wa wb h
      cases b with
      | map fs =>
        obtain ⟨gs, hp, hm⟩ := map_matching ih wa wb h
        refine eq_map_iff.mpr ⟨(eq_map_iff.mp h).1.symm, ?_⟩
        intro f hf
        obtain ⟨e, he, hk, hv⟩ := hm.right f (hp.mem_iff.mpr hf)
        rw [keyM_iff] at hk
        have hfe := (ih e he).1.symm _ (wa.key he) (wb.key hf) hk.2
        refine ⟨e, ?_, (ih e he).2.symm _ (wa.val he) (wb.val hf) hv⟩
        apply findKey_eq wa.distinct he (keyM_iff.mpr ⟨sameHash_symm hk.1, hfe⟩)
        intro e' he' hk'
        rw [keyM_iff] at hk'
        have h1 := (ih e he).1.trans _ _ (wa.key he) (wb.key hf) (wa.key he') hk.2 hk'.2
        have s1 := sameHash_trans hk.1 hk'.1
        exact ⟨keyM_iff.mpr ⟨s1, h1⟩,
          keyM_iff.mpr ⟨sameHash_symm s1, (ih e he).1.symm _ (wa.key he) (wa.key he') h1⟩⟩
      | _ => simp [Node.eq] at h
    · intro b c wa wb wc h h'
      cases b with
      | map fs =>
        cases c with
        | map gs =>
          obtain ⟨hl, hf⟩ := eq_map_iff.mp h
          obtain ⟨hl', hg⟩ := eq_map_iff.mp h'
          refine eq_map_iff.mpr ⟨hl.trans hl', ?_⟩
          intro e he
          obtain ⟨f, h1, h2⟩ := hf e he
          obtain ⟨hfm, hk⟩ := findKey_some h1
          obtain ⟨g, h3, h4⟩ := hg f hfm
          obtain ⟨hgm, hk'⟩ := findKey_some h3
          rw [keyM_iff] at hk hk'
          have heg := (ih e he).1.trans _ _ (wa.key he) (wb.key hfm) (wc.key hgm) hk.2 hk'.2
          refine ⟨g, ?_, (ih e he).2.trans _ _ (wa.val he) (wb.val hfm) (wc.val hgm) h2 h4⟩
          apply findKey_eq wc.distinct hgm (keyM_iff.mpr ⟨sameHash_trans hk.1 hk'.1, heg⟩)
          intro g' hg' hkg
          rw [keyM_iff] at hkg
          have s := sameHash_trans (sameHash_symm (sameHash_trans hk.1 hk'.1)) hkg.1
          exact ⟨keyM_iff.mpr ⟨s, (ih e he).1.eucl _ _ (wa.key he) (wc.key hgm) (wc.key hg') heg hkg.2⟩,
            keyM_iff.mpr ⟨sameHash_symm s,
              (ih e he).1.eucl _ _ (wa.key he) (wc.key hg') (wc.key hgm) hkg.2 heg⟩⟩
        | _ => simp [Node.eq] at h'
      | _ => simp [Node.eq] at h
    · intro b c wa wb wc h h'
      cases b with
      | map fs =>
        cases c with
        | map gs =>
          obtain ⟨hl, hf⟩ := eq_map_iff.mp h
          obtain ⟨hl', hg⟩ := eq_map_iff.mp h'
          obtain ⟨fs', hp, hm⟩ := map_matching ih wa wb h
          refine eq_map_iff.mpr ⟨hl.symm.trans hl', ?_⟩
          intro f hfm
          obtain ⟨e, he, hk, hv⟩ := hm.right f (hp.mem_iff.mpr hfm)
          obtain ⟨g, h3, h4⟩ := hg e he
          obtain ⟨hgm, hk'⟩ := findKey_some h3
          rw [keyM_iff] at hk hk'
          have hfg := (ih e he).1.eucl _ _ (wa.key he) (wb.key hfm) (wc.key hgm) hk.2 hk'.2
          refine ⟨g, ?_, (ih e he).2.eucl _ _ (wa.val he) (wb.val hfm) (wc.val hgm) hv h4⟩
          apply findKey_eq wc.distinct hgm
            (keyM_iff.mpr ⟨sameHash_trans (sameHash_symm hk.1) hk'.1, hfg⟩)
          intro g' hg' hkg
          rw [keyM_iff] at hkg
          have heg' := (ih e he).1.trans _ _ (wa.key he) (wb.key hfm) (wc.key hg') hk.2 hkg.2
          have s := sameHash_trans (sameHash_symm hk'.1) (sameHash_trans hk.1 hkg.1)
          exact ⟨keyM_iff.mpr ⟨s, (ih e he).1.eucl _ _ (wa.key he) (wc.key hgm) (wc.key hg') hk'.2 heg'⟩,
            keyM_iff.mpr ⟨sameHash_symm s,
              (ih e he).1.eucl _ _ (wa.key he) (wc.key hg') (wc.key hgm) heg' hk'.2⟩⟩
        | _ => simp [Node.eq] at h'
      | _ => simp [Node.eq] at h

end Ab.Edn
