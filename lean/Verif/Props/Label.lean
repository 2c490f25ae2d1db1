import Verif.Model.Label
/-! C34: the label table. -/
namespace Ab.Spec

open LT (Op Obs)

/-- The ids handed out by a run, in order. -/
def labelsOf : List Obs → List Nat
  | [] => []
  | .label id :: os => id :: labelsOf os
  | _ :: os => labelsOf os

/-- The history of a run: each operation with what it returned, oldest first. -/
abbrev LHist := List (Op × Obs)

/-- `id` has been handed out. -/
def Allocated (h : LHist) (id : Nat) : Prop := ∃ op, (op, Obs.label id) ∈ h

/-- `id` has been placed at `o`, either on allocation or later. -/
def PlacedAt (h : LHist) (id : Nat) (o : U32) : Prop :=
  (Op.allocAt o, Obs.label id) ∈ h ∨ (Op.place id o, Obs.unit) ∈ h

end Ab.Spec

namespace Ab.LT

open Spec (labelsOf LHist Allocated PlacedAt)

/-- The table after a history. -/
structure Inv (t : Table) (h : LHist) : Prop where
  ids : ∀ (i : Nat) r, t[i]? = some r → r.id = i
  all : ∀ i, Allocated h i ↔ i < t.length
  placed : ∀ (i : Nat) r o, t[i]? = some r → (PlacedAt h i o ↔ (r.placed = true ∧ r.offset = o))
  outside : ∀ i o, PlacedAt h i o → i < t.length

theorem lt_of_get {t : Table} {i : Nat} {r} (h : t[i]? = some r) : i < t.length := by
  rcases Nat.lt_or_ge i t.length with h' | h'
  · exact h'
  · rw [List.getElem?_eq_none h'] at h; cases h

theorem get_of_lt {t : Table} {i : Nat} (h : i < t.length) : ∃ r, t[i]? = some r := ⟨_, List.getElem?_eq_getElem h⟩

theorem place_spec {t : Table} {id : Nat} {o : U32} {h} (I : Inv t h) :
    (∃ r, t[id]? = some r ∧ r.placed = false ∧
      place t id o = .ok (t.set id { r with offset := o, placed := true })) ∨
    ((∃ w, place t id o = .trap w) ∧ (t.length ≤ id ∨ ∃ r, t[id]? = some r ∧ r.placed = true)) := by
  unfold place
  by_cases hlt : id < t.length
  · obtain ⟨r, hr⟩ := get_of_lt hlt
    simp only [hlt, decide_true, Outcome.assert_true, Outcome.ok_bind, hr]
    cases hp : r.placed
    · left
      exact ⟨r, rfl, hp, by simp [I.ids id r hr]⟩
    · right
      exact ⟨⟨"!record.placed", by simp⟩, Or.inr ⟨r, rfl, hp⟩⟩
  · right
    exact ⟨⟨_, by simp [hlt]; rfl⟩, Or.inl (by omega)⟩

theorem target_spec {t : Table} {id : Nat} {h} (I : Inv t h) :
    (∃ r, t[id]? = some r ∧ r.placed = true ∧ targetOf t id = .ok r.offset) ∨
    ((∃ w, targetOf t id = .trap w) ∧ (t.length ≤ id ∨ ∃ r, t[id]? = some r ∧ r.placed = false)) := by
  unfold targetOf
  by_cases hlt : id < t.length
  · obtain ⟨r, hr⟩ := get_of_lt hlt
    simp only [hlt, decide_true, Outcome.assert_true, Outcome.ok_bind, hr, I.ids id r hr, beq_self_eq_true]
    cases hp : r.placed
    · right
      exact ⟨⟨"record.placed", by simp⟩, Or.inr ⟨r, rfl, hp⟩⟩
    · left
      exact ⟨r, rfl, hp, by simp⟩
  · right
    exact ⟨⟨_, by simp [hlt]; rfl⟩, Or.inl (by omega)⟩

theorem inv_nil : Inv [] [] :=
  ⟨by simp, by intro i; simp [Allocated], by simp, by intro i o h; rcases h with h | h <;> cases h⟩

theorem get_snoc {t : Table} {x r : Record} {i : Nat} (h : (t ++ [x])[i]? = some r) :
    (i = t.length ∧ r = x) ∨ (i < t.length ∧ t[i]? = some r) := by
  have hl := lt_of_get h
  simp at hl
  by_cases hlt : i < t.length
  · right; rw [List.getElem?_append_left hlt] at h; exact ⟨hlt, h⟩
  · left
    have : i = t.length := by omega
    subst this
    simp at h
    exact ⟨rfl, h.symm⟩

theorem get_set {t : Table} {id i : Nat} {x r : Record} (hlt : id < t.length)
    (h : (t.set id x)[i]? = some r) : (i = id ∧ r = x) ∨ (i ≠ id ∧ t[i]? = some r) := by
  by_cases he : i = id
  · left
    rw [he, List.getElem?_set_self hlt] at h
    exact ⟨he, by cases h; rfl⟩
  · right
    rw [List.getElem?_set_ne (fun hh => he hh.symm)] at h
    exact ⟨he, h⟩

theorem inv_alloc {t h} (I : Inv t h) : Inv (alloc t).1 (h ++ [(.alloc, .label (alloc t).2)]) := by
  refine ⟨?_, ?_, ?_, ?_⟩
  · intro i r hi
    rcases get_snoc hi with ⟨h1, h2⟩ | ⟨_, h2⟩
    · rw [h2, h1]
    · exact I.ids i r h2
  · intro i
    simp only [Allocated, List.mem_append, List.mem_singleton, Prod.mk.injEq, Obs.label.injEq, alloc,
      List.length_append, List.length_cons, List.length_nil]
    constructor
    · rintro ⟨op, h1 | ⟨_, h1⟩⟩
      · have := (I.all i).mp ⟨op, h1⟩; omega
      · omega
    · intro hi
      rcases Nat.lt_or_ge i t.length with h1 | h1
      · obtain ⟨op, h2⟩ := (I.all i).mpr h1
        exact ⟨op, Or.inl h2⟩
      · exact ⟨.alloc, Or.inr ⟨rfl, by omega⟩⟩
  · intro i r o hi
    have hpl : PlacedAt (h ++ [(.alloc, .label (alloc t).2)]) i o ↔ PlacedAt h i o := by
      simp [PlacedAt]
    rw [hpl]
    rcases get_snoc hi with ⟨h1, h2⟩ | ⟨_, h2⟩
    · rw [h2]
      constructor
      · intro hh; have := I.outside i o hh; omega
      · rintro ⟨hh, _⟩; cases hh
    · exact I.placed i r o h2
  · intro i o hh
    have : PlacedAt h i o := by simpa [PlacedAt] using hh
    have := I.outside i o this
    simp [alloc]; omega

theorem inv_place {t h id r o} (I : Inv t h) (hr : t[id]? = some r) (hp : r.placed = false) :
    Inv (t.set id { r with offset := o, placed := true }) (h ++ [(.place id o, .unit)]) := by
  have hlt := lt_of_get hr
  refine ⟨?_, ?_, ?_, ?_⟩
  · intro i r' hi
    rcases get_set hlt hi with ⟨he, hx⟩ | ⟨_, hi⟩
    · rw [hx, he]
      exact I.ids id r hr
    · exact I.ids _ _ hi
  · intro i
    rw [List.length_set, ← I.all i]
    simp [Allocated]
  · intro i r' o' hi
    have hpl : PlacedAt (h ++ [(.place id o, .unit)]) i o' ↔ PlacedAt h i o' ∨ (i = id ∧ o' = o) := by
      simp [PlacedAt, or_assoc]
    rw [hpl]
    rcases get_set hlt hi with ⟨he, hx⟩ | ⟨he, hi⟩
    · subst he hx
      have := I.placed i r o' hr
      rw [this, hp]
      simp
      exact eq_comm
    · rw [I.placed i r' o' hi]
      simp [he]
  · intro i o' hh
    rw [List.length_set]
    have hpl : PlacedAt h i o' ∨ (i = id ∧ o' = o) := by
      simpa [PlacedAt, or_assoc] using hh
    rcases hpl with h1 | ⟨h1, _⟩
    · exact I.outside i o' h1
    · omega

theorem inv_target {t h id o} (I : Inv t h) : Inv t (h ++ [(.target id, .offset o)]) := by
  refine ⟨I.ids, ?_, ?_, ?_⟩
  · intro i; rw [← I.all i]; simp [Allocated]
  · intro i r o' hi; rw [← I.placed i r o' hi]; simp [PlacedAt]
  · intro i o' hh; exact I.outside i o' (by simpa [PlacedAt] using hh)

theorem inv_allocAt {t h o} (I : Inv t h) :
    ∃ t', allocAt t o = .ok (t', t.length) ∧ Inv t' (h ++ [(.allocAt o, .label t.length)]) ∧
      t'.length = t.length + 1 := by
  have I1 := inv_alloc I
  have hr : (alloc t).1[t.length]? = some ⟨0, t.length, false⟩ := by simp [alloc]
  have hlen : (alloc t).1.length = t.length + 1 := by simp [alloc]
  have hlt : t.length < (alloc t).1.length := by omega
  refine ⟨(alloc t).1.set t.length ⟨o, t.length, true⟩, ?_, ?_, by rw [List.length_set, hlen]⟩
  · show (do let t' ← place (alloc t).1 (alloc t).2 o; pure (t', (alloc t).2)) = _
    unfold place
    have h2 : (alloc t).2 = t.length := rfl
    simp only [h2, hlt, decide_true, Outcome.assert_true, Outcome.ok_bind, hr]
    simp
  · refine ⟨?_, ?_, ?_, ?_⟩
    · intro i r hi
      rcases get_set hlt hi with ⟨he, hx⟩ | ⟨_, hi⟩
      · rw [hx, he]
      · exact I1.ids i r hi
    · intro i
      rw [List.length_set, hlen]
      simp only [Allocated, List.mem_append, List.mem_singleton, Prod.mk.injEq, Obs.label.injEq]
      constructor
      · rintro ⟨op, h1 | ⟨_, h1⟩⟩
        · have := (I.all i).mp ⟨op, h1⟩; omega
        · omega
      · intro hi
        rcases Nat.lt_or_ge i t.length with h1 | h1
        · obtain ⟨op, h2⟩ := (I.all i).mpr h1
          exact ⟨op, Or.inl h2⟩
        · exact ⟨.allocAt o, Or.inr ⟨rfl, by omega⟩⟩
    · intro i r o' hi
      have hpl : PlacedAt (h ++ [(.allocAt o, .label t.length)]) i o' ↔
          PlacedAt h i o' ∨ (i = t.length ∧ o' = o) := by
        simp only [PlacedAt, List.mem_append, List.mem_singleton, Prod.mk.injEq, Obs.label.injEq,
          Op.allocAt.injEq, reduceCtorEq, false_and, or_false]
        constructor
        · rintro ((h1 | ⟨h1, h2⟩) | h1)
          · exact Or.inl (Or.inl h1)
          · exact Or.inr ⟨h2, h1⟩
          · exact Or.inl (Or.inr h1)
        · rintro ((h1 | h1) | ⟨h1, h2⟩)
          · exact Or.inl (Or.inl h1)
          · exact Or.inr h1
          · exact Or.inl (Or.inr ⟨h2, h1⟩)
      rw [hpl]
      rcases get_set hlt hi with ⟨he, hx⟩ | ⟨hne, hi⟩
      · subst he hx
        constructor
        · rintro (h1 | ⟨_, h1⟩)
          · have := I.outside _ _ h1; omega
          · exact ⟨rfl, h1.symm⟩
        · rintro ⟨_, h1⟩; exact Or.inr ⟨rfl, h1.symm⟩
      · rcases get_snoc hi with ⟨h1, _⟩ | ⟨_, h2⟩
        · exact absurd h1 hne
        · rw [I.placed i r o' h2]; simp [hne]
    · intro i o' hh
      rw [List.length_set, hlen]
      simp only [PlacedAt, List.mem_append, List.mem_singleton, Prod.mk.injEq, Obs.label.injEq,
          Op.allocAt.injEq, reduceCtorEq, false_and, or_false] at hh
      rcases hh with (h1 | ⟨_, h1⟩) | h1
      · have := I.outside i o' (Or.inl h1); omega
      · omega
      · have := I.outside i o' (Or.inr h1); omega

theorem run_inv {ops : List Op} : ∀ {t h t' os}, Inv t h → run t ops = .ok (t', os) →
    Inv t' (h ++ ops.zip os) ∧ os.length = ops.length ∧
    labelsOf os = (List.range (t'.length - t.length)).map (t.length + ·) ∧ t.length ≤ t'.length := by
  induction ops with
  | nil =>
    intro t h t' os I hr
    cases hr
    simp [labelsOf]; exact I
  | cons op ops ih =>
    intro t h t' os I hr
    simp only [run] at hr
    obtain ⟨⟨t1, o1⟩, h1, hr⟩ := Outcome.bind_eq_ok.mp hr
    obtain ⟨⟨t2, o2⟩, h2, hr⟩ := Outcome.bind_eq_ok.mp hr
    injection hr with hr
    injection hr with hrt hro
    simp only at hrt hro h2
    subst hrt hro
    have key : ∀ {ob}, Inv t1 (h ++ [(op, ob)]) → ob = o1 → (t1.length = t.length ∧ labelsOf [o1] = [] ∨
        t1.length = t.length + 1 ∧ o1 = .label t.length) →
        Inv t2 (h ++ (op :: ops).zip (o1 :: o2)) ∧ (o1 :: o2).length = (op :: ops).length ∧
        labelsOf (o1 :: o2) = (List.range (t2.length - t.length)).map (t.length + ·) ∧
        t.length ≤ t2.length := by
      intro ob I1 hob hcase
      subst hob
      obtain ⟨J, hl, hlab, hle⟩ := ih I1 h2
      refine ⟨by simpa using J, by simp [hl], ?_, ?_⟩
      · rcases hcase with ⟨hlen, hno⟩ | ⟨hlen, rfl⟩
        · have : labelsOf (ob :: o2) = labelsOf o2 := by
            cases ob <;> first | rfl | (simp [labelsOf] at hno)
          rw [this, hlab, hlen]
        · simp only [labelsOf, hlab, hlen]
          have e1 : t2.length - t.length = (t2.length - (t.length + 1)) + 1 := by omega
          rw [e1, List.range_succ_eq_map]
          simp only [List.map_cons, Nat.add_zero, List.map_map]
          congr 1
          apply List.map_congr_left
          intro x _
          simp; omega
      · rcases hcase with ⟨hlen, _⟩ | ⟨hlen, _⟩ <;> omega
    cases op with
    | alloc =>
      injection h1 with h1
      injection h1 with ha hb
      subst ha
      exact key (inv_alloc I) hb (Or.inr ⟨by simp [alloc], by rw [← hb]; rfl⟩)
    | allocAt o =>
      obtain ⟨t3, ha, J, hl⟩ := inv_allocAt (o := o) I
      simp only [step, ha, Outcome.ok_bind, Outcome.pure_eq] at h1
      injection h1 with h1
      injection h1 with hx hy
      subst hx
      exact key J hy (Or.inr ⟨hl, hy.symm⟩)
    | place id o =>
      rcases place_spec (id := id) (o := o) I with ⟨r, hgr, hp, hpl⟩ | ⟨⟨w, hw⟩, -⟩
      · simp only [step, hpl, Outcome.ok_bind, Outcome.pure_eq] at h1
        injection h1 with h1
        injection h1 with hx hy
        subst hx
        exact key (inv_place I hgr hp) hy (Or.inl ⟨by simp, by rw [← hy]; rfl⟩)
      · simp [step, hw] at h1
    | target id =>
      rcases target_spec (id := id) I with ⟨r, hgr, hp, hpl⟩ | ⟨⟨w, hw⟩, -⟩
      · simp only [step, hpl, Outcome.ok_bind, Outcome.pure_eq] at h1
        injection h1 with h1
        injection h1 with hx hy
        subst hx
        exact key (inv_target I) hy (Or.inl ⟨rfl, by rw [← hy]; rfl⟩)
      · simp [step, hw] at h1

/-- C34, ids: over any history the ids handed out are pairwise distinct (they are 0, 1, 2, ...). -/
theorem C34_label_ids_distinct (ops : List Op) (t : Table) (os : List Obs)
    (hr : run [] ops = .ok (t, os)) :
    labelsOf os = List.range (labelsOf os).length ∧ (labelsOf os).Nodup := by
  obtain ⟨-, -, h, -⟩ := run_inv inv_nil hr
  have h' : labelsOf os = List.range t.length := by
    rw [h]; simp
  rw [h']
  simp [List.nodup_range]

/-- C34, resolution: after any history, asking for the target of a label gives the offset it was placed
at, and aborts if it was never placed. -/
theorem C34_target_is_placed_offset (ops : List Op) (t : Table) (os : List Obs)
    (hr : run [] ops = .ok (t, os)) (id : Nat) :
    (∀ o, targetOf t id = .ok o ↔ PlacedAt (ops.zip os) id o) ∧
    ((¬ ∃ o, PlacedAt (ops.zip os) id o) → ∃ w, targetOf t id = .trap w) := by
  obtain ⟨I, -⟩ := run_inv inv_nil hr
  simp only [List.nil_append] at I
  rcases target_spec (id := id) I with ⟨r, hg, hp, ht⟩ | ⟨⟨w, hw⟩, hcase⟩
  · constructor
    · intro o
      rw [ht, I.placed id r o hg, hp]; simp
    · intro hno
      exact absurd ⟨r.offset, (I.placed id r _ hg).mpr ⟨hp, rfl⟩⟩ hno
  · refine ⟨?_, fun _ => ⟨w, hw⟩⟩
    intro o
    rw [hw]
    constructor
    · intro h; cases h
    · intro h
      rcases hcase with hlen | ⟨r, hg, hp⟩
      · have := I.outside id o h; omega
      · have := (I.placed id r o hg).mp h; rw [hp] at this; cases this.1

/-- C34, placing: it succeeds exactly on an allocated label that has not been placed, and aborts
otherwise. -/
theorem C34_place_once (ops : List Op) (t : Table) (os : List Obs)
    (hr : run [] ops = .ok (t, os)) (id : Nat) (o : U32) :
    ((place t id o).isOk = true ↔ Allocated (ops.zip os) id ∧ ¬ ∃ o', PlacedAt (ops.zip os) id o') ∧
    ((place t id o).isOk = false → ∃ w, place t id o = .trap w) := by
  obtain ⟨I, -⟩ := run_inv inv_nil hr
  simp only [List.nil_append] at I
  rcases place_spec (id := id) (o := o) I with ⟨r, hg, hp, ht⟩ | ⟨⟨w, hw⟩, hcase⟩
  · rw [ht]
    refine ⟨⟨fun _ => ⟨(I.all id).mpr (lt_of_get hg), ?_⟩, fun _ => rfl⟩, fun h => by cases h⟩
    rintro ⟨o', ho⟩
    have := (I.placed id r o' hg).mp ho
    rw [hp] at this; cases this.1
  · rw [hw]
    refine ⟨⟨fun h => (by cases h), ?_⟩, fun _ => ⟨w, rfl⟩⟩
    rintro ⟨h1, h2⟩
    exfalso
    rcases hcase with hlen | ⟨r, hg, hp⟩
    · have := (I.all id).mp h1; omega
    · exact h2 ⟨r.offset, (I.placed id r _ hg).mpr ⟨hp, rfl⟩⟩

/-- Allocation never fails. -/
theorem C34_alloc_total (ops : List Op) (t : Table) (os : List Obs) (hr : run [] ops = .ok (t, os))
    (o : U32) : (step t .alloc).isOk = true ∧ (step t (.allocAt o)).isOk = true := by
  obtain ⟨I, -⟩ := run_inv inv_nil hr
  obtain ⟨t', ha, -⟩ := inv_allocAt (o := o) I
  exact ⟨rfl, by simp [step, ha]; rfl⟩

example : ∃ t, run [] [.alloc, .allocAt 7, .alloc, .place 2 9, .place 0 5, .target 2, .target 0] =
    .ok (t, [.label 0, .label 1, .label 2, .unit, .unit, .offset 9, .offset 5]) := ⟨_, rfl⟩

end Ab.LT
