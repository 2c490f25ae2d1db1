import Verif.Proof.EdnNode
/-! More about EDN node equality: reachability of well-formedness, soundness, completeness, hashing. -/
namespace Ab.Edn

open Spec

theorem wf_leaf {L : Lib} {n : Node} (h : ∀ es, ¬ Sub (.map es) n) : WF L n := fun es he => absurd he (h es)

theorem keyM_symm {L : Lib} {a b : Node} (wa : WF L a) (wb : WF L b) (h : keyM L a b = true) :
    keyM L b a = true := by
  rw [keyM_iff] at *
  exact ⟨sameHash_symm h.1, (eqv L a).symm _ wa wb h.2⟩

theorem distinct_perm {L : Lib} {es fs : List Entry} (hp : es.Perm fs) (w : ∀ e ∈ es, WF L e.1)
    (d : Distinct L es) : Distinct L fs := by
  let R : Entry → Entry → Prop := fun a b => keyM L a.1 b.1 = false ∧ keyM L b.1 a.1 = false
  have h1 : es.Pairwise R := by
    apply List.Pairwise.imp_of_mem _ d
    intro a b ha hb h
    refine ⟨h, ?_⟩
    cases hh : keyM L b.1 a.1 with
    | false => rfl
    | true => rw [keyM_symm (w b hb) (w a ha) hh] at h; cases h
  have h2 : fs.Pairwise R := (hp.pairwise_iff (R := R) (fun h => ⟨h.2, h.1⟩)).mp h1
  exact h2.imp (fun h => h.1)

/-- Every tree a program can build has distinct, hashable keys in its maps. -/
theorem built_wf {L : Lib} (hL : Lawful L) {n : Node} (h : Built L n) : WF L n := by
  induction h with
  | nil => exact wf_leaf (by rintro es ⟨⟩)
  | bool => exact wf_leaf (by rintro es ⟨⟩)
  | int => exact wf_leaf (by rintro es ⟨⟩)
  | real => exact wf_leaf (by rintro es ⟨⟩)
  | sym => exact wf_leaf (by rintro es ⟨⟩)
  | kw => exact wf_leaf (by rintro es ⟨⟩)
  | chr => exact wf_leaf (by rintro es ⟨⟩)
  | str => exact wf_leaf (by rintro es ⟨⟩)
  | list _ ih => intro es hs; cases hs with | list hx hs => exact ih _ hx es hs
  | vec _ ih => intro es hs; cases hs with | vec hx hs => exact ih _ hx es hs
  | emptyMap =>
    intro es hs
    cases hs with
    | refl => exact ⟨List.Pairwise.nil, by simp⟩
    | key h => cases h
    | val h => cases h
  | @insert es k v hk _ _ _ hh ihm ihk ihv =>
    unfold insertEntry
    cases hf : findKey L es (k, v).1 with
    | some _ => exact ihm
    | none =>
      have hp := hL.place_perm es (k, v)
      have hno := findKey_none hf
      have hmem : ∀ e ∈ L.place es (k, v), e = (k, v) ∨ e ∈ es := fun e he => by
        simpa using hp.mem_iff.mp he
      intro fs hs
      cases hs with
      | refl =>
        refine ⟨?_, ?_⟩
        · apply distinct_perm hp.symm
          · intro e he
            rcases List.mem_cons.mp he with h | h
            · subst h; exact ihk
            · exact ihm.key h
          · exact List.pairwise_cons.mpr ⟨hno, ihm.distinct⟩
        · intro e he
          rcases hmem e he with h | h
          · subst h; exact ⟨_, hh⟩
          · exact ihm.hash h
      | key he hs =>
        rcases hmem _ he with h | h
        · subst h; exact ihk fs hs
        · exact ihm.key h fs hs
      | val he hs =>
        rcases hmem _ he with h | h
        · subst h; exact ihv fs hs
        · exact ihm.val h fs hs

theorem _root_.Ab.Spec.NaNFree.list {xs x} (w : NaNFree (.list xs)) (h : x ∈ xs) : NaNFree x := fun v hv => w v (.list h hv)
theorem _root_.Ab.Spec.NaNFree.vec {xs x} (w : NaNFree (.vec xs)) (h : x ∈ xs) : NaNFree x := fun v hv => w v (.vec h hv)
theorem _root_.Ab.Spec.NaNFree.key {es e} (w : NaNFree (.map es)) (h : e ∈ es) : NaNFree e.1 := fun v hv => w v (.key h hv)
theorem _root_.Ab.Spec.NaNFree.val {es e} (w : NaNFree (.map es)) (h : e ∈ es) : NaNFree e.2 := fun v hv => w v (.val h hv)

theorem F2.refl {R : α → α → Prop} {xs : List α} (h : ∀ x ∈ xs, R x x) : F2 R xs xs := by
  induction xs with
  | nil => exact .nil
  | cons x xs ih => exact .cons (h x (by simp)) (ih (fun y hy => h y (by simp [hy])))

theorem isNaN_iff (v : U64) : isNaN v = true ↔ IsNaN v := by
  unfold isNaN IsNaN
  have h : (v &&& 0x7fffffffffffffff#64).toNat = v.toNat % 2^63 := by
    rw [BitVec.toNat_and, show (0x7fffffffffffffff#64).toNat = 2^63 - 1 from rfl, Nat.and_two_pow_sub_one_eq_mod]
  have hv := v.isLt
  simp only [gt_iff_lt, decide_eq_true_eq, BitVec.lt_def, h]
  simp only [show (0x7ff0000000000000#64).toNat = 2047 * 2^52 from rfl]
  omega

theorem isNaN_false {v : U64} (h : ¬ IsNaN v) : isNaN v = false := by
  cases hn : isNaN v with
  | false => rfl
  | true => exact absurd ((isNaN_iff v).1 hn) h

/-- A tree without NaN equals itself. -/
theorem eq_refl {L : Lib} : ∀ a, WF L a → NaNFree a → Node.eq L a a = true := by
  apply Node.ind
  · intro _ _; simp [Node.eq]
  · intro x _ _; simp [Node.eq]
  · intro x _ _; simp [Node.eq]
  · intro x _ hn
    have := isNaN_false (hn x (.refl _))
    simp [Node.eq, dblEq, this]
  · intro x _ _; simp [Node.eq]
  · intro x _ _; simp [Node.eq]
  · intro x _ _; simp [Node.eq]
  · intro x _ _; simp [Node.eq]
  · intro xs ih w hn
    simp only [Node.eq]
    exact eqList_iff.mpr (.refl (fun x hx => ih x hx (w.list hx) (hn.list hx)))
  · intro xs ih w hn
    simp only [Node.eq]
    exact eqList_iff.mpr (.refl (fun x hx => ih x hx (w.vec hx) (hn.vec hx)))
  · intro es ih w hn
    refine eq_map_iff.mpr ⟨rfl, ?_⟩
    intro e he
    refine ⟨e, ?_, (ih e he).2 (w.val he) (hn.val he)⟩
    obtain ⟨x, hx⟩ := w.hash he
    apply findKey_eq w.distinct he
      (keyM_iff.mpr ⟨sameHash_iff.mpr ⟨x, hx, hx⟩, (ih e he).1 (w.key he) (hn.key he)⟩)
    intro e' he' hk
    exact ⟨hk, keyM_symm (w.key he) (w.key he') hk⟩

theorem sameList_iff {xs ys : List Node} : SameList xs ys ↔ F2 Same xs ys := by
  constructor
  · intro h
    induction xs generalizing ys with
    | nil => cases h; exact .nil
    | cons x xs ih => cases h with | cons h1 h2 => exact .cons h1 (ih h2)
  · intro h
    induction h with
    | nil => exact .nil
    | cons h1 _ ih => exact .cons h1 ih

theorem sameEntries_iff {es fs : List Entry} :
    SameEntries es fs ↔ F2 (fun e f => Same e.1 f.1 ∧ Same e.2 f.2) es fs := by
  constructor
  · intro h
    induction es generalizing fs with
    | nil => cases h; exact .nil
    | cons e es ih => cases h with | cons h1 h2 h3 => exact .cons ⟨h1, h2⟩ (ih h3)
  · intro h
    induction h with
    | nil => exact .nil
    | cons h1 _ ih => exact .cons h1.1 h1.2 ih

theorem isZero_iff (a : U64) : isZero a = true ↔ a = 0#64 ∨ a = 0x8000000000000000#64 := by
  unfold isZero
  rw [beq_iff_eq]
  constructor
  · intro h
    have h' := congrArg BitVec.toNat h
    rw [BitVec.toNat_and] at h'
    have e : (0x7fffffffffffffff#64).toNat = 2^63 - 1 := by decide
    rw [e, Nat.and_two_pow_sub_one_eq_mod] at h'
    have h0 : (0#64).toNat = 0 := rfl
    rw [h0] at h'
    have hl := a.isLt
    have : a.toNat = 0 ∨ a.toNat = 2^63 := by omega
    rcases this with h1 | h1
    · left; apply BitVec.eq_of_toNat_eq; exact h1
    · right; apply BitVec.eq_of_toNat_eq; rw [h1]; decide
  · rintro (h | h) <;> subst h <;> decide

theorem dblEq_same {a b : U64} (h : dblEq a b = true) : SameDouble a b := by
  unfold dblEq at h
  simp only [Bool.and_eq_true, Bool.or_eq_true, beq_iff_eq, isZero_iff] at h
  obtain ⟨-, h⟩ := h
  unfold SameDouble
  rcases h with h | ⟨h1 | h1, h2 | h2⟩
  · exact Or.inl h
  · exact Or.inl (by rw [h1, h2])
  · exact Or.inr (Or.inl ⟨h1, h2⟩)
  · exact Or.inr (Or.inr ⟨h1, h2⟩)
  · exact Or.inl (by rw [h1, h2])

theorem same_dblEq {a b : U64} (h : SameDouble a b) (ha : isNaN a = false) : dblEq a b = true := by
  rcases h with h | ⟨h1, h2⟩ | ⟨h1, h2⟩
  · subst h; simp [dblEq, ha]
  · subst h1; subst h2; decide
  · subst h1; subst h2; decide

/-- Trees that compare equal are the same data. -/
theorem eq_same {L : Lib} : ∀ a b, WF L a → WF L b → Node.eq L a b = true → Same a b := by
  have main : ∀ a, ∀ b, WF L a → WF L b → Node.eq L a b = true → Same a b := by
    apply Node.ind
    · intro b _ _ h; cases b <;> simp [Node.eq] at h; exact .nil
    · intro x b _ _ h; cases b <;> simp [Node.eq] at h; rw [h]; exact .bool _
    · intro x b _ _ h; cases b <;> simp [Node.eq] at h; rw [h]; exact .int _
    · intro x b _ _ h; cases b <;> simp [Node.eq] at h; exact .real (dblEq_same h)
    · intro x b _ _ h; cases b <;> simp [Node.eq] at h; rw [h]; exact .sym _
    · intro x b _ _ h; cases b <;> simp [Node.eq] at h; rw [h]; exact .kw _
    · intro x b _ _ h; cases b <;> simp [Node.eq] at h; rw [h]; exact .chr _
    · intro x b _ _ h; cases b <;> simp [Node.eq] at h; rw [h]; exact .str _
    · intro xs ih b wa wb h
      cases b <;> simp [Node.eq] at h
      exact .list (sameList_iff.mpr ((eqList_iff.mp h).mono
        (fun x hx y hy h => ih x hx y (wa.list hx) (wb.list hy) h)))
    · intro xs ih b wa wb h
      cases b <;> simp [Node.eq] at h
      exact .vec (sameList_iff.mpr ((eqList_iff.mp h).mono
        (fun x hx y hy h => ih x hx y (wa.vec hx) (wb.vec hy) h)))
    · intro es ih b wa wb h
      cases b with
      | map fs =>
        obtain ⟨gs, hp, hm⟩ := map_matching (fun e _ => ⟨eqv L e.1, eqv L e.2⟩) wa wb h
        refine .map (sameEntries_iff.mpr (hm.mono ?_)) hp
        intro e he f hf hef
        have hf' := hp.mem_iff.mp hf
        exact ⟨(ih e he).1 _ (wa.key he) (wb.key hf') (keyM_iff.mp hef.1).2,
          (ih e he).2 _ (wa.val he) (wb.val hf') hef.2⟩
      | _ => simp [Node.eq] at h
  exact main

theorem _root_.Ab.Spec.SmallMaps.list {xs x} (w : SmallMaps (.list xs)) (h : x ∈ xs) : SmallMaps x := fun v hv => w v (.list h hv)
theorem _root_.Ab.Spec.SmallMaps.vec {xs x} (w : SmallMaps (.vec xs)) (h : x ∈ xs) : SmallMaps x := fun v hv => w v (.vec h hv)
theorem _root_.Ab.Spec.SmallMaps.key {es e} (w : SmallMaps (.map es)) (h : e ∈ es) : SmallMaps e.1 := fun v hv => w v (.key h hv)
theorem _root_.Ab.Spec.SmallMaps.val {es e} (w : SmallMaps (.map es)) (h : e ∈ es) : SmallMaps e.2 := fun v hv => w v (.val h hv)

theorem hashList_congr {L : Lib} {xs ys : List Node} (h : F2 (fun x y => Node.hash L x = Node.hash L y) xs ys) :
    ∀ a, hashList L xs a = hashList L ys a := by
  induction h with
  | nil => intro a; rfl
  | cons h1 _ ih =>
    intro a
    simp only [hashList, h1]
    congr 1
    funext x
    exact ih _

theorem same_double_hash {L : Lib} (hL : Lawful L) {a b : U64} (h : SameDouble a b) :
    L.hashDouble a = L.hashDouble b := by
  cases hn : isNaN a with
  | false => exact hL.hash_double _ _ (same_dblEq h hn)
  | true =>
    rcases h with h | ⟨h1, h2⟩ | ⟨h1, h2⟩
    · rw [h]
    · subst h1; exact absurd hn (by decide)
    · subst h1; exact absurd hn (by decide)

/-- The same data hashes alike when no map in it has two entries. -/
theorem same_hash {L : Lib} (hL : Lawful L) :
    ∀ a b, SmallMaps a → Same a b → Node.hash L a = Node.hash L b := by
  have main : ∀ a, ∀ b, SmallMaps a → Same a b → Node.hash L a = Node.hash L b := by
    apply Node.ind
    · intro b _ h; cases h; rfl
    · intro x b _ h; cases h; rfl
    · intro x b _ h; cases h; rfl
    · intro x b _ h
      cases h with
      | real h => simp only [Node.hash, same_double_hash hL h]
    · intro x b _ h; cases h; rfl
    · intro x b _ h; cases h; rfl
    · intro x b _ h; cases h; rfl
    · intro x b _ h; cases h; rfl
    · intro xs ih b hs h
      cases h with
      | list h =>
        simp only [Node.hash]
        exact hashList_congr ((sameList_iff.mp h).mono (fun x hx y _ hxy => ih x hx y (hs.list hx) hxy)) _
    · intro xs ih b hs h
      cases h with
      | vec h =>
        simp only [Node.hash]
        exact hashList_congr ((sameList_iff.mp h).mono (fun x hx y _ hxy => ih x hx y (hs.vec hx) hxy)) _
    · intro es ih b hs h
      cases h with
      | @map _ fs gs hm hp =>
        have hl := hs es (.refl _)
        have hm := sameEntries_iff.mp hm
        have hlen := hm.length
        have hgf : gs = fs := by
          rcases gs with _ | ⟨g, _ | ⟨g', gs⟩⟩
          · exact (List.nil_perm.mp hp).symm
          · exact List.singleton_perm.mp hp
          · simp at hlen; omega
        subst hgf
        rcases es with _ | ⟨e, _ | ⟨e', es⟩⟩
        · cases hm; rfl
        · cases hm with
          | @cons _ f _ _ h1 h2 =>
            cases h2
            obtain ⟨k, v⟩ := e
            obtain ⟨k', v'⟩ := f
            have i1 := (ih (k, v) (by simp)).1 k' (hs.key (e := (k, v)) (by simp)) h1.1
            have i2 := (ih (k, v) (by simp)).2 v' (hs.val (e := (k, v)) (by simp)) h1.2
            simp only at i1 i2
            simp only [Node.hash, hashEntries, hashEntry, i1, i2]
        · simp at hl
  exact main

theorem _root_.Ab.Spec.SmallKeys.list {xs x} (w : SmallKeys (.list xs)) (h : x ∈ xs) : SmallKeys x := fun v e hv => w v e (.list h hv)
theorem _root_.Ab.Spec.SmallKeys.vec {xs x} (w : SmallKeys (.vec xs)) (h : x ∈ xs) : SmallKeys x := fun v e hv => w v e (.vec h hv)
theorem _root_.Ab.Spec.SmallKeys.key {es e} (w : SmallKeys (.map es)) (h : e ∈ es) : SmallKeys e.1 := fun v f hv => w v f (.key h hv)
theorem _root_.Ab.Spec.SmallKeys.val {es e} (w : SmallKeys (.map es)) (h : e ∈ es) : SmallKeys e.2 := fun v f hv => w v f (.val h hv)

/-- The same data compares equal when the maps' keys contain no map of two entries. -/
theorem same_eq {L : Lib} (hL : Lawful L) :
    ∀ a b, WF L a → WF L b → NaNFree a → SmallKeys a → Same a b → Node.eq L a b = true := by
  have main : ∀ a, ∀ b, WF L a → WF L b → NaNFree a → SmallKeys a → Same a b → Node.eq L a b = true := by
    apply Node.ind
    · intro b _ _ _ _ h; cases h; simp [Node.eq]
    · intro x b _ _ _ _ h; cases h; simp [Node.eq]
    · intro x b _ _ _ _ h; cases h; simp [Node.eq]
    · intro x b _ _ hn _ h
      cases h with
      | real h => simp only [Node.eq]; exact same_dblEq h (isNaN_false (hn _ (.refl _)))
    · intro x b _ _ _ _ h; cases h; simp [Node.eq]
    · intro x b _ _ _ _ h; cases h; simp [Node.eq]
    · intro x b _ _ _ _ h; cases h; simp [Node.eq]
    · intro x b _ _ _ _ h; cases h; simp [Node.eq]
    · intro xs ih b wa wb hn hs h
      cases h with
      | list h =>
        simp only [Node.eq]
        exact eqList_iff.mpr ((sameList_iff.mp h).mono (fun x hx y hy hxy =>
          ih x hx y (wa.list hx) (wb.list hy) (hn.list hx) (hs.list hx) hxy))
    · intro xs ih b wa wb hn hs h
      cases h with
      | vec h =>
        simp only [Node.eq]
        exact eqList_iff.mpr ((sameList_iff.mp h).mono (fun x hx y hy hxy =>
          ih x hx y (wa.vec hx) (wb.vec hy) (hn.vec hx) (hs.vec hx) hxy))
    · intro es ih b wa wb hn hs h
      cases h with
      | @map _ fs gs hm hp =>
        have hm := sameEntries_iff.mp hm
        refine eq_map_iff.mpr ⟨by rw [hm.length, hp.length_eq], ?_⟩
        intro e he
        obtain ⟨f, hf, h1, h2⟩ := hm.left e he
        have hf' := hp.mem_iff.mp hf
        refine ⟨f, ?_, (ih e he).2 _ (wa.val he) (wb.val hf') (hn.val he) (hs.val he) h2⟩
        obtain ⟨x, hx⟩ := wa.hash he
        have hh := same_hash hL e.1 f.1 (hs es e (.refl _) he) h1
        have he1 := (ih e he).1 _ (wa.key he) (wb.key hf') (hn.key he) (hs.key he) h1
        have hk : sameHash L e.1 f.1 = true := sameHash_iff.mpr ⟨x, hx, by rw [← hh, hx]⟩
        apply findKey_eq wb.distinct hf' (keyM_iff.mpr ⟨hk, he1⟩)
        intro g hg hkg
        rw [keyM_iff] at hkg
        have := (eqv L e.1).eucl _ _ (wa.key he) (wb.key hf') (wb.key hg) he1 hkg.2
        have hfg : keyM L f.1 g.1 = true := keyM_iff.mpr ⟨sameHash_trans (sameHash_symm hk) hkg.1, this⟩
        exact ⟨hfg, keyM_symm (wb.key hf') (wb.key hg) hfg⟩
  exact main

end Ab.Edn
