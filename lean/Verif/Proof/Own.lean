import Verif.Spec.Own
namespace Ab.Own
open Spec.Own

/-! ## Counting -/

theorem countP_set_add {α : Type} (p : α → Bool) : ∀ (l : List α) (i : Nat) (x a : α), l[i]? = some x →
    (l.set i a).countP p + (if p x then 1 else 0) = l.countP p + (if p a then 1 else 0)
  | [], i, x, a, h => by simp at h
  | y :: l, 0, x, a, h => by
    simp at h; subst h
    simp only [List.set_cons_zero, List.countP_cons]
    omega
  | y :: l, i + 1, x, a, h => by
    simp at h
    have := countP_set_add p l i x a h
    simp only [List.set_cons_succ, List.countP_cons]
    omega

theorem countP_snoc {α : Type} (p : α → Bool) (l : List α) (a : α) :
    (l ++ [a]).countP p = l.countP p + (if p a then 1 else 0) := by
  simp [List.countP_append, List.countP_cons]

/-- A `shared_ptr` variable to module `m`. -/
def isPtr (m : Nat) (o : Option (Option Nat)) : Bool := decide (o = some (some m))
/-- An instance of module `m`. -/
def isInst (m : Nat) (o : Option Inst) : Bool := decide (o.map (·.mod) = some m)
/-- A storage for `(d, b)`. -/
def isSto (d b : Nat) (o : Option Storage) : Bool := decide (o = some ⟨some b, some d⟩)
/-- A module made from `(d, b)`. -/
def isMod (d b : Nat) (o : Option Mod) : Bool := decide (o.map (·.storage) = some ⟨some b, some d⟩)

/-- The references to module `m`. -/
def refs (s : St) (m : Nat) : Nat := s.ptrs.countP (isPtr m) + s.insts.countP (isInst m)
/-- The owners of `(d, b)`. -/
def held (s : St) (d b : Nat) : Nat := s.storages.countP (isSto d b) + s.mods.countP (isMod d b)

/-- Use counts, with `k` extra references to module `x` pending. -/
structure InvU (s : St) (extra : Nat → Nat) : Prop where
  live : ∀ m x, s.mods[m]? = some (some x) → x.uses = refs s m + extra m ∧ 0 < x.uses
  dead : ∀ m, (∀ x, s.mods[m]? ≠ some (some x)) → refs s m + extra m = 0
  vm : ∀ l, s.vm = some l → l = []

/-- Nothing extra. -/
def none0 : Nat → Nat := fun _ => 0
/-- One extra reference to `m`. -/
def one (m : Nat) : Nat → Nat := fun x => if x = m then 1 else 0

theorem freeStorage_count (st : Storage) (l : List (Nat × Nat)) (d b : Nat) :
    (freeStorage st l).count (d, b) = l.count (d, b) + (if st = ⟨some b, some d⟩ then 1 else 0) := by
  unfold freeStorage
  rcases st with ⟨_ | b', _ | d'⟩
  all_goals simp [List.count_cons]
  congr 1
  apply propext
  constructor <;> rintro ⟨h1, h2⟩ <;> exact ⟨h2, h1⟩

theorem refs_zero_of_ge {s : St} {e : Nat → Nat} (h : InvU s e) {m : Nat} (hm : s.mods.length ≤ m) : refs s m + e m = 0 := by
  apply h.dead
  intro x hx
  rw [List.getElem?_eq_none hm] at hx
  cases hx

theorem getElem?_set_cases {α : Type} {l : List α} {i j : Nat} {a y : α} (h : (l.set i a)[j]? = some y) :
    (j = i ∧ y = a) ∨ (j ≠ i ∧ l[j]? = some y) := by
  rw [List.getElem?_set] at h
  split at h
  · rename_i hij
    split at h
    · injection h with h
      exact Or.inl ⟨hij.symm, h.symm⟩
    · cases h
  · rename_i hij
    exact Or.inr ⟨fun e => hij e.symm, h⟩

theorem getElem?_set_none {α : Type} {l : List (Option α)} {i j : Nat} {a : Option α}
    (h : ∀ y, (l.set i a)[j]? ≠ some (some y)) (hj : j ≠ i) : ∀ y, l[j]? ≠ some (some y) := by
  intro y hy
  apply h y
  rw [List.getElem?_set_ne (Ne.symm hj)]
  exact hy

/-! ## The building blocks -/

theorem retain_ok {s : St} {m : Nat} {e : Nat → Nat} (h : InvU s e) (hr : 0 < refs s m + e m) :
    ∃ s', retain s m = .ok s' ∧ InvU s' (fun x => e x + one m x) ∧ s'.freed = s.freed ∧ s'.storages = s.storages ∧
      s'.ptrs = s.ptrs ∧ s'.insts = s.insts ∧ s'.vm = s.vm ∧ s'.mods.length = s.mods.length ∧
      (∀ d b, s'.mods.countP (isMod d b) = s.mods.countP (isMod d b)) := by
  unfold retain
  cases hm : s.mods[m]? with
  | none =>
    have := h.dead m (by intro x hx; rw [hm] at hx; cases hx)
    omega
  | some o =>
    cases o with
    | none =>
      have := h.dead m (by intro x hx; rw [hm] at hx; cases hx)
      omega
    | some x =>
      obtain ⟨hu, hp⟩ := h.live m x hm
      refine ⟨_, rfl, ⟨?_, ?_, ?_⟩, rfl, rfl, rfl, rfl, rfl, by simp, ?_⟩
      · intro j y hy
        rcases getElem?_set_cases hy with ⟨hj, he⟩ | ⟨hj, he⟩
        · subst hj
          injection he with he
          subst he
          simp only [one, if_true]
          refine ⟨?_, by omega⟩
          show x.uses + 1 = refs s _ + _
          omega
        · obtain ⟨a, b⟩ := h.live j y he
          simp only [one, if_neg hj]
          exact ⟨a, b⟩
      · intro j hj
        by_cases hjm : j = m
        · subst hjm
          exfalso
          have hl : j < s.mods.length := (List.getElem?_eq_some_iff.1 hm).1
          exact hj { x with uses := x.uses + 1 } (by simp [List.getElem?_set, hl])
        · have := h.dead j (getElem?_set_none hj hjm)
          simp only [one, if_neg hjm]
          exact this
      · exact h.vm
      · intro d b
        have := countP_set_add (isMod d b) s.mods m (some x) (some { x with uses := x.uses + 1 }) hm
        have he : isMod d b (some x) = isMod d b (some { x with uses := x.uses + 1 }) := rfl
        rw [he] at this
        show (s.mods.set m _).countP _ = _
        omega

theorem release_ok {s : St} {m : Nat} {e : Nat → Nat} (h : InvU s (fun x => e x + one m x)) :
    ∃ s', release s m = .ok s' ∧ InvU s' e ∧ s'.storages = s.storages ∧
      s'.ptrs = s.ptrs ∧ s'.insts = s.insts ∧ s'.vm = s.vm ∧
      (∀ d b, s'.mods.countP (isMod d b) + s'.freed.count (d, b) =
        s.mods.countP (isMod d b) + s.freed.count (d, b)) := by
  unfold release
  have hex : ∀ o, s.mods[m]? = o → (∀ x, o ≠ some (some x)) → False := by
    intro o ho hn
    have := h.dead m (by rw [ho]; exact hn)
    simp only [one, if_true] at this
    omega
  cases hm : s.mods[m]? with
  | none => exact absurd (hex _ hm (by simp)) id
  | some o =>
    cases o with
    | none => exact absurd (hex _ hm (by simp)) id
    | some x =>
      obtain ⟨hu, hp⟩ := h.live m x hm
      have hl : m < s.mods.length := (List.getElem?_eq_some_iff.1 hm).1
      simp only [one, if_true] at hu
      simp only
      by_cases h1 : x.uses = 1
      · rw [if_pos h1]
        refine ⟨_, rfl, ⟨?_, ?_, h.vm⟩, rfl, rfl, rfl, rfl, ?_⟩
        · intro j y hy
          rcases getElem?_set_cases hy with ⟨_, he⟩ | ⟨hj, he⟩
          · cases he
          · have := h.live j y he
            simp only [one, if_neg hj] at this
            exact this
        · intro j hj
          show refs s j + e j = 0
          by_cases hjm : j = m
          · subst hjm; omega
          · have := h.dead j (getElem?_set_none hj hjm)
            simp only [one, if_neg hjm] at this
            omega
        · intro d b
          have := countP_set_add (isMod d b) s.mods m (some x) none hm
          show (s.mods.set m none).countP _ + (freeStorage x.storage s.freed).count (d, b) = _
          rw [freeStorage_count]
          have h2 : isMod d b none = false := rfl
          have h3 : isMod d b (some x) = decide (x.storage = ⟨some b, some d⟩) := by simp [isMod]
          rw [h2, h3] at this
          simp only [decide_eq_true_eq, Bool.false_eq_true, if_false] at this
          omega
      · rw [if_neg h1]
        refine ⟨_, rfl, ⟨?_, ?_, h.vm⟩, rfl, rfl, rfl, rfl, ?_⟩
        · intro j y hy
          rcases getElem?_set_cases hy with ⟨hj, he⟩ | ⟨hj, he⟩
          · subst hj
            injection he with he
            subst he
            refine ⟨?_, ?_⟩
            · show x.uses - 1 = refs s _ + _
              omega
            · show 0 < x.uses - 1
              omega
          · have := h.live j y he
            simp only [one, if_neg hj] at this
            exact this
        · intro j hj
          show refs s j + e j = 0
          by_cases hjm : j = m
          · subst hjm
            exfalso
            exact hj { x with uses := x.uses - 1 } (by simp [List.getElem?_set, hl])
          · have := h.dead j (getElem?_set_none hj hjm)
            simp only [one, if_neg hjm] at this
            omega
        · intro d b
          have := countP_set_add (isMod d b) s.mods m (some x) (some { x with uses := x.uses - 1 }) hm
          have he : isMod d b (some x) = isMod d b (some { x with uses := x.uses - 1 }) := rfl
          rw [he] at this
          show (s.mods.set m _).countP _ + s.freed.count (d, b) = _
          omega

theorem compileInto_cases (mem : Nat → List Byte) {s : St} {e : Nat → Nat} (h : InvU s e) (b0 : Nat) (d0 : Option Nat) :
    (∃ s' r, compileInto mem s ⟨some b0, d0⟩ = .ok (s', r) ∧
      InvU s' (fun x => e x + (match r with | some m => one m x | none => 0)) ∧
      s'.storages = s.storages ∧ s'.ptrs = s.ptrs ∧ s'.insts = s.insts ∧ s'.vm = s.vm ∧
      (∀ m, r = some m → ∃ x, s'.mods[m]? = some (some x)) ∧
      ∀ d b, s'.mods.countP (isMod d b) + s'.freed.count (d, b) =
        s.mods.countP (isMod d b) + s.freed.count (d, b) + (if d0 = some d ∧ b0 = b then 1 else 0)) ∨
    (∃ w, compileInto mem s ⟨some b0, d0⟩ = .trap w) ∨ compileInto mem s ⟨some b0, d0⟩ = .fuel ∨
    (∃ w, compileInto mem s ⟨some b0, d0⟩ = .ub w ∧ compile (mem b0) = .ub w) := by
  unfold compileInto
  simp only
  cases hc : compile (mem b0) with
  | ok c =>
    refine Or.inl ⟨_, _, rfl, ⟨?_, ?_, h.vm⟩, rfl, rfl, rfl, rfl, ?_, ?_⟩
    · intro j y hy
      show y.uses = refs s j + (e j + one s.mods.length j) ∧ _
      rw [List.getElem?_append] at hy
      split at hy
      · rename_i hlt
        simp only [one, if_neg (Nat.ne_of_lt hlt)]
        exact h.live j y hy
      · rename_i hlt
        have hj : j = s.mods.length := by
          have := (List.getElem?_eq_some_iff.1 hy).1
          simp at this; omega
        subst hj
        simp at hy
        subst hy
        have := refs_zero_of_ge h (Nat.le_refl s.mods.length)
        simp only [one, if_true]
        omega
    · intro j hj
      show refs s j + (e j + one s.mods.length j) = 0
      by_cases hjl : j = s.mods.length
      · subst hjl
        exfalso
        exact hj ⟨⟨some b0, d0⟩, 1, c⟩ (by simp)
      · simp only [one, if_neg hjl]
        apply h.dead
        intro x hx
        apply hj x
        have hl := (List.getElem?_eq_some_iff.1 hx).1
        show (s.mods ++ _)[j]? = _
        rw [List.getElem?_append_left hl]
        exact hx
    · intro m hm
      injection hm with hm
      subst hm
      exact ⟨⟨⟨some b0, d0⟩, 1, c⟩, by simp⟩
    · intro d b
      show (s.mods ++ [_]).countP _ + _ = _
      rw [countP_snoc]
      have : isMod d b (some ⟨⟨some b0, d0⟩, 1, c⟩) = decide (d0 = some d ∧ b0 = b) := by
        simp [isMod, and_comm]
      rw [this]
      simp only [decide_eq_true_eq]
      show _ + s.freed.count (d, b) = _
      omega
  | throw w =>
    refine Or.inl ⟨_, _, rfl, ⟨?_, ?_, h.vm⟩, rfl, rfl, rfl, rfl, ?_, ?_⟩
    · intro j y hy
      show y.uses = refs s j + (e j + 0) ∧ _
      rw [List.getElem?_append] at hy
      split at hy
      · exact h.live j y hy
      · rename_i hlt
        have := (List.getElem?_eq_some_iff.1 hy)
        obtain ⟨h1, h2⟩ := this
        simp at h2
    · intro j hj
      show refs s j + (e j + 0) = 0
      apply h.dead
      intro x hx
      apply hj x
      have hl := (List.getElem?_eq_some_iff.1 hx).1
      show (s.mods ++ _)[j]? = _
      rw [List.getElem?_append_left hl]
      exact hx
    · intro m hm; cases hm
    · intro d b
      show (s.mods ++ [none]).countP _ + (freeStorage ⟨some b0, d0⟩ s.freed).count (d, b) = _
      rw [countP_snoc, freeStorage_count]
      have h2 : isMod d b none = false := rfl
      rw [h2]
      simp only [Bool.false_eq_true, if_false, Storage.mk.injEq, Option.some.injEq]
      have : (if b0 = b ∧ d0 = some d then 1 else 0) = (if d0 = some d ∧ b0 = b then 1 else 0) := by
        congr 1; exact propext and_comm
      omega
  | trap w => exact Or.inr (Or.inl ⟨w, rfl⟩)
  | ub w => exact Or.inr (Or.inr (Or.inr ⟨w, rfl, rfl⟩))
  | fuel => exact Or.inr (Or.inr (Or.inl rfl))

/-! ## Steps -/

/-- The invariant: exact use counts, and every block handed over is held or released, as often as it was handed over. -/
structure Inv (s : St) (H : List (Nat × Nat)) : Prop where
  u : InvU s none0
  blocks : ∀ d b, held s d b + s.freed.count (d, b) = H.count (d, b)

theorem inv_init : Inv St.init [] :=
  ⟨⟨by intro m x h; simp [St.init] at h, by intro m _; rfl, by intro l h; simp [St.init] at h; exact h⟩,
    by intro d b; rfl⟩

theorem InvU.congr {s s' : St} {e e' : Nat → Nat} (h : InvU s e) (hm : s'.mods = s.mods) (hv : s'.vm = s.vm)
    (hr : ∀ m, refs s' m + e' m = refs s m + e m) : InvU s' e' := by
  refine ⟨?_, ?_, ?_⟩
  · intro m x hx; rw [hm] at hx; rw [hr]; exact h.live m x hx
  · intro m hx; rw [hr]; apply h.dead; rw [← hm]; exact hx
  · rw [hv]; exact h.vm

theorem refs_ptr_set (s : St) (i : Nat) (x a : Option (Option Nat)) (h : s.ptrs[i]? = some x) (m : Nat) :
    refs { s with ptrs := s.ptrs.set i a } m + (if isPtr m x then 1 else 0)
      = refs s m + (if isPtr m a then 1 else 0) := by
  have := countP_set_add (isPtr m) s.ptrs i x a h
  show (s.ptrs.set i a).countP _ + s.insts.countP _ + _ = s.ptrs.countP _ + s.insts.countP _ + _
  omega

theorem refs_ptr_snoc (s : St) (a : Option (Option Nat)) (m : Nat) :
    refs { s with ptrs := s.ptrs ++ [a] } m = refs s m + (if isPtr m a then 1 else 0) := by
  have := countP_snoc (isPtr m) s.ptrs a
  show (s.ptrs ++ [a]).countP _ + s.insts.countP _ = s.ptrs.countP _ + s.insts.countP _ + _
  omega

theorem refs_inst_set (s : St) (i : Nat) (x a : Option Inst) (h : s.insts[i]? = some x) (m : Nat) :
    refs { s with insts := s.insts.set i a } m + (if isInst m x then 1 else 0)
      = refs s m + (if isInst m a then 1 else 0) := by
  have := countP_set_add (isInst m) s.insts i x a h
  show s.ptrs.countP _ + (s.insts.set i a).countP _ + _ = s.ptrs.countP _ + s.insts.countP _ + _
  omega

theorem refs_inst_snoc (s : St) (a : Option Inst) (m : Nat) :
    refs { s with insts := s.insts ++ [a] } m = refs s m + (if isInst m a then 1 else 0) := by
  have := countP_snoc (isInst m) s.insts a
  show s.ptrs.countP _ + (s.insts ++ [a]).countP _ = s.ptrs.countP _ + s.insts.countP _ + _
  omega

theorem isPtr_some (m k : Nat) : (if isPtr m (some (some k)) then 1 else 0) = one k m := by
  simp only [isPtr, one, Option.some.injEq, decide_eq_true_eq]
  congr 1; exact propext ⟨Eq.symm, Eq.symm⟩

theorem isInst_some (m : Nat) (x : Inst) : (if isInst m (some x) then 1 else 0) = one x.mod m := by
  simp only [isInst, one, Option.map_some, Option.some.injEq, decide_eq_true_eq]
  congr 1; exact propext ⟨Eq.symm, Eq.symm⟩

theorem isSto_moved (d b : Nat) : isSto d b (some .moved) = false := by
  simp [isSto, Storage.moved]

theorem held_def (s : St) (d b : Nat) :
    held s d b = s.storages.countP (isSto d b) + s.mods.countP (isMod d b) := rfl

theorem newInst_ok {s : St} {m : Nat} (h : InvU s (one m)) :
    ∃ s', newInst s m = .ok s' ∧ InvU s' none0 ∧ s'.storages = s.storages ∧ s'.mods = s.mods ∧ s'.freed = s.freed := by
  unfold newInst
  have hex : ∀ o, s.mods[m]? = o → (∀ x, o ≠ some (some x)) → False := by
    intro o ho hn
    have := h.dead m (by rw [ho]; exact hn)
    simp only [one, if_true] at this
    omega
  cases hm : s.mods[m]? with
  | none => exact absurd (hex _ hm (by simp)) id
  | some o =>
    cases o with
    | none => exact absurd (hex _ hm (by simp)) id
    | some x =>
      refine ⟨_, rfl, h.congr rfl rfl ?_, rfl, rfl, rfl⟩
      intro k
      rw [refs_inst_snoc, isInst_some]
      simp [none0]

/-- A sensible operation keeps the invariant or ends the process. -/
theorem step_inv (mem : Nat → List Byte) (hmem : ∀ b w, compile (mem b) ≠ .ub w) {s : St} {H : List (Nat × Nat)}
    (h : Inv s H) (op : Op) (hs : Sensible s op) :
    (∃ s', step mem s op = .ok s' ∧ Inv s' (handed [op] ++ H)) ∨ (∃ w, step mem s op = .trap w) ∨
      step mem s op = .fuel := by
  cases op with
  | storage b0 d0 =>
    refine Or.inl ⟨_, rfl, h.u.congr rfl rfl (fun _ => rfl), ?_⟩
    intro d b
    have h0 := h.blocks d b
    rw [held_def] at h0 ⊢
    show (s.storages ++ [some (Storage.mk (some b0) d0)]).countP _ + s.mods.countP _ + s.freed.count (d, b) = _
    rw [countP_snoc]
    cases d0 with
    | none => simp [isSto, handed]; omega
    | some d0 =>
      simp only [isSto, handed, List.cons_append, List.nil_append, List.count_cons, Option.some.injEq, Storage.mk.injEq,
        decide_eq_true_eq, beq_iff_eq, Prod.mk.injEq]
      have : (if b0 = b ∧ d0 = d then 1 else 0) = (if d0 = d ∧ b0 = b then 1 else 0) := by
        congr 1; exact propext and_comm
      omega
  | moveStorage i =>
    obtain ⟨st, hst⟩ := hs
    simp only [step, hst]
    refine Or.inl ⟨_, rfl, h.u.congr rfl rfl (fun _ => rfl), ?_⟩
    intro d b
    have h0 := h.blocks d b
    rw [held_def] at h0 ⊢
    have h1 := countP_set_add (isSto d b) s.storages i _ (some .moved) hst
    show (s.storages.set i (some .moved) ++ [some st]).countP _ + s.mods.countP _ + s.freed.count (d, b) = _
    rw [countP_snoc]
    rw [isSto_moved] at h1
    simp only [handed, List.nil_append, Bool.false_eq_true, if_false] at h1 ⊢
    omega
  | dropStorage i =>
    obtain ⟨st, hst⟩ := hs
    simp only [step, hst]
    refine Or.inl ⟨_, rfl, h.u.congr rfl rfl (fun _ => rfl), ?_⟩
    intro d b
    have h0 := h.blocks d b
    rw [held_def] at h0 ⊢
    have h1 := countP_set_add (isSto d b) s.storages i _ none hst
    show (s.storages.set i none).countP _ + s.mods.countP _ + (freeStorage st s.freed).count (d, b) = _
    rw [freeStorage_count]
    have h2 : isSto d b none = false := rfl
    have h3 : isSto d b (some st) = decide (st = ⟨some b, some d⟩) := by simp [isSto]
    rw [h2, h3] at h1
    simp only [handed, List.nil_append, Bool.false_eq_true, if_false, decide_eq_true_eq] at h1 ⊢
    omega
  | compileStorage i =>
    obtain ⟨b0, d0, hst⟩ := hs
    simp only [step, hst]
    have hu : InvU { s with storages := s.storages.set i (some .moved) } none0 := h.u.congr rfl rfl (fun _ => rfl)
    rcases compileInto_cases mem hu b0 d0 with ⟨s', r, e, iu, e1, e2, e3, e4, e5, e6⟩ | ⟨w, e⟩ | e | ⟨w, _, e⟩
    · rw [e]
      simp only [Outcome.ok_bind]
      have hb : ∀ d b, held s' d b + s'.freed.count (d, b) = H.count (d, b) := by
        intro d b
        have h0 := h.blocks d b
        rw [held_def] at h0 ⊢
        have h1 := countP_set_add (isSto d b) s.storages i _ (some .moved) hst
        have h2 := e6 d b
        rw [e1]
        rw [isSto_moved] at h1
        have h3 : isSto d b (some ⟨some b0, d0⟩) = decide (d0 = some d ∧ b0 = b) := by simp [isSto, and_comm]
        rw [h3] at h1
        simp only [Bool.false_eq_true, if_false, decide_eq_true_eq] at h1 h2 ⊢
        omega
      cases r with
      | some m =>
        refine Or.inl ⟨_, rfl, iu.congr rfl rfl ?_, hb⟩
        intro k
        rw [refs_ptr_snoc, isPtr_some]
        simp [none0]
      | none =>
        refine Or.inl ⟨_, rfl, iu.congr rfl rfl ?_, hb⟩
        intro k
        rw [refs_ptr_snoc]
        simp [none0, isPtr]
    · rw [e]; exact Or.inr (Or.inl ⟨w, rfl⟩)
    · rw [e]; exact Or.inr (Or.inr rfl)
    · exact absurd e (hmem _ _)
  | compileBytes b0 =>
    simp only [step]
    rcases compileInto_cases mem h.u b0 (some FREE) with ⟨s', r, e, iu, e1, e2, e3, e4, e5, e6⟩ | ⟨w, e⟩ | e | ⟨w, _, e⟩
    · rw [e]
      simp only [Outcome.ok_bind]
      have hb : ∀ d b, held s' d b + s'.freed.count (d, b) = (handed [.compileBytes b0] ++ H).count (d, b) := by
        intro d b
        have h0 := h.blocks d b
        rw [held_def] at h0 ⊢
        have h2 := e6 d b
        rw [e1]
        simp only [handed, List.cons_append, List.nil_append, List.count_cons, beq_iff_eq, Prod.mk.injEq, FREE, Option.some.injEq] at h2 ⊢
        omega
      cases r with
      | some m =>
        refine Or.inl ⟨_, rfl, iu.congr rfl rfl ?_, hb⟩
        intro k
        rw [refs_ptr_snoc, isPtr_some]
        simp [none0]
      | none =>
        refine Or.inl ⟨_, rfl, iu.congr rfl rfl ?_, hb⟩
        intro k
        rw [refs_ptr_snoc]
        simp [none0, isPtr]
    · rw [e]; exact Or.inr (Or.inl ⟨w, rfl⟩)
    · rw [e]; exact Or.inr (Or.inr rfl)
    · exact absurd e (hmem _ _)
  | copyPtr i =>
    obtain ⟨p, hp⟩ := hs
    cases p with
    | none =>
      simp only [step, hp]
      refine Or.inl ⟨_, rfl, h.u.congr rfl rfl ?_, h.blocks⟩
      intro k
      rw [refs_ptr_snoc]
      simp [isPtr]
    | some m =>
      simp only [step, hp]
      have hpos : 0 < refs s m + none0 m := by
        have : 0 < s.ptrs.countP (isPtr m) :=
          List.countP_pos_iff.2 ⟨_, List.mem_of_getElem? hp, by simp [isPtr]⟩
        unfold refs; omega
      obtain ⟨s', e, iu, e1, e2, e3, e4, e5, e6, e7⟩ := retain_ok h.u hpos
      rw [e]
      refine Or.inl ⟨_, rfl, iu.congr rfl rfl ?_, ?_⟩
      · intro k
        rw [refs_ptr_snoc, isPtr_some]
        simp [none0]
      · intro d b
        have h0 := h.blocks d b
        rw [held_def] at h0 ⊢
        show s'.storages.countP _ + s'.mods.countP _ + s'.freed.count (d, b) = _
        rw [e1, e2, e7]
        exact h0
  | movePtr i =>
    obtain ⟨p, hp⟩ := hs
    simp only [step, hp]
    refine Or.inl ⟨_, rfl, h.u.congr rfl rfl ?_, h.blocks⟩
    intro k
    have h1 := refs_ptr_set s i _ (some none) hp k
    have h2 := refs_ptr_snoc { s with ptrs := s.ptrs.set i (some none) } (some p) k
    have h3 : isPtr k (some none) = false := by simp [isPtr]
    rw [h3] at h1
    simp only [Bool.false_eq_true, if_false] at h1 h2 ⊢
    omega
  | dropPtr i =>
    obtain ⟨p, hp⟩ := hs
    cases p with
    | none =>
      simp only [step, hp]
      refine Or.inl ⟨_, rfl, h.u.congr rfl rfl ?_, h.blocks⟩
      intro k
      have h1 := refs_ptr_set s i _ none hp k
      simp [isPtr] at h1
      rw [h1]
    | some m =>
      simp only [step, hp]
      have hu : InvU { s with ptrs := s.ptrs.set i none } (fun x => none0 x + one m x) := by
        refine h.u.congr rfl rfl ?_
        intro k
        have h1 := refs_ptr_set s i _ none hp k
        rw [isPtr_some] at h1
        have h3 : isPtr k none = false := by simp [isPtr]
        rw [h3] at h1
        simp only [Bool.false_eq_true, if_false] at h1
        simp only [none0]
        omega
      obtain ⟨s', e, iu, e1, e2, e3, e4, e5⟩ := release_ok hu
      rw [e]
      refine Or.inl ⟨_, rfl, iu, ?_⟩
      intro d b
      have h0 := h.blocks d b
      have h1 := e5 d b
      rw [held_def] at h0 ⊢
      rw [e1]
      simp only [handed, List.nil_append] at h1 ⊢
      omega
  | instantiate i =>
    obtain ⟨m, hp⟩ := hs
    simp only [step, hp]
    have hpos : 0 < refs s m + none0 m := by
      have : 0 < s.ptrs.countP (isPtr m) :=
        List.countP_pos_iff.2 ⟨_, List.mem_of_getElem? hp, by simp [isPtr]⟩
      unfold refs; omega
    obtain ⟨s', e, iu, e1, e2, e3, e4, e5, e6, e7⟩ := retain_ok h.u hpos
    rw [e]
    simp only [Outcome.ok_bind]
    have iu' : InvU s' (one m) := iu.congr rfl rfl (by intro k; simp [none0])
    obtain ⟨s'', e', iu'', f1, f2, f3⟩ := newInst_ok iu'
    rw [e']
    refine Or.inl ⟨_, rfl, iu'', ?_⟩
    intro d b
    have h0 := h.blocks d b
    rw [held_def] at h0 ⊢
    rw [f1, f2, f3, e1, e2, e7]
    exact h0
  | instantiateMove i =>
    obtain ⟨m, hp⟩ := hs
    simp only [step, hp]
    have iu' : InvU { s with ptrs := s.ptrs.set i (some none) } (one m) := by
      refine h.u.congr rfl rfl ?_
      intro k
      have h1 := refs_ptr_set s i _ (some none) hp k
      rw [isPtr_some] at h1
      have h3 : isPtr k (some none) = false := by simp [isPtr]
      rw [h3] at h1
      simp only [Bool.false_eq_true, if_false] at h1
      simp only [none0]
      omega
    obtain ⟨s'', e', iu'', f1, f2, f3⟩ := newInst_ok iu'
    rw [e']
    refine Or.inl ⟨_, rfl, iu'', ?_⟩
    intro d b
    have h0 := h.blocks d b
    rw [held_def] at h0 ⊢
    rw [f1, f2, f3]
    exact h0
  | instantiateBytes b0 =>
    simp only [step]
    rcases compileInto_cases mem h.u b0 (some FREE) with ⟨s', r, e, iu, e1, e2, e3, e4, e5, e6⟩ | ⟨w, e⟩ | e | ⟨w, _, e⟩
    · rw [e]
      simp only [Outcome.ok_bind]
      have hb : ∀ d b, held s' d b + s'.freed.count (d, b) = (handed [.instantiateBytes b0] ++ H).count (d, b) := by
        intro d b
        have h0 := h.blocks d b
        rw [held_def] at h0 ⊢
        have h2 := e6 d b
        rw [e1]
        simp only [handed, List.cons_append, List.nil_append, List.count_cons, beq_iff_eq, Prod.mk.injEq, FREE, Option.some.injEq] at h2 ⊢
        omega
      cases r with
      | some m =>
        have iu' : InvU s' (one m) := iu.congr rfl rfl (by intro k; simp [none0])
        obtain ⟨s'', e', iu'', f1, f2, f3⟩ := newInst_ok iu'
        simp only
        rw [e']
        refine Or.inl ⟨_, rfl, iu'', ?_⟩
        intro d b
        have h0 := hb d b
        rw [held_def] at h0 ⊢
        rw [f1, f2, f3]
        exact h0
      | none =>
        refine Or.inl ⟨_, rfl, iu.congr rfl rfl ?_, hb⟩
        intro k
        rw [refs_inst_snoc]
        simp [none0, isInst]
    · rw [e]; exact Or.inr (Or.inl ⟨w, rfl⟩)
    · rw [e]; exact Or.inr (Or.inr rfl)
    · exact absurd e (hmem _ _)
  | deleteInst i =>
    obtain ⟨x, hp⟩ := hs
    simp only [step, hp]
    have hu : InvU { s with insts := s.insts.set i none } (fun y => none0 y + one x.mod y) := by
      refine h.u.congr rfl rfl ?_
      intro k
      have h1 := refs_inst_set s i _ none hp k
      rw [isInst_some] at h1
      have h3 : isInst k none = false := by simp [isInst]
      rw [h3] at h1
      simp only [Bool.false_eq_true, if_false] at h1
      simp only [none0]
      omega
    obtain ⟨s', e, iu, e1, e2, e3, e4, e5⟩ := release_ok hu
    rw [e]
    refine Or.inl ⟨_, rfl, iu, ?_⟩
    intro d b
    have h0 := h.blocks d b
    have h1 := e5 d b
    rw [held_def] at h0 ⊢
    rw [e1]
    simp only [handed, List.nil_append] at h1 ⊢
    omega
  | destroyVm =>
    cases hv : s.vm with
    | none => exact absurd hv hs
    | some l =>
      have := h.u.vm l hv
      subst this
      simp only [step, hv, destroyAll]
      refine Or.inl ⟨_, rfl, ⟨h.u.live, h.u.dead, by intro l hl; cases hl⟩, h.blocks⟩

end Ab.Own
