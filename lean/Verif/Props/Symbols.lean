import Verif.Model.EdnNode
/-! C36: symbol interning is a bijection between the interned texts and their symbols. -/
namespace Ab.Edn

/-- The table holding `names`, in the order they were first interned. -/
def tabOf (names : List (List Byte)) : SymTab :=
  ⟨BitVec.ofNat 64 names.length,
   names.zipIdx.map (fun p => (p.1, BitVec.ofNat 64 p.2)),
   names.zipIdx.map (fun p => (BitVec.ofNat 64 p.2, p.1))⟩

theorem find_symbols (names : List (List Byte)) (s : List Byte) :
    (tabOf names).symbols.find? (fun p => p.1 == s) =
      (names.idxOf? s).map (fun i => (s, BitVec.ofNat 64 i)) := by
  show (names.zipIdx.map _).find? _ = _
  have gen : ∀ k, ((names.zipIdx k).map (fun p => (p.1, BitVec.ofNat 64 p.2))).find? (fun p => p.1 == s) =
      (names.idxOf? s).map (fun i => (s, BitVec.ofNat 64 (k + i))) := by
    induction names with
    | nil => intro k; rfl
    | cons n ns ih =>
      intro k
      simp only [List.zipIdx_cons, List.map_cons, List.find?_cons, List.idxOf?_cons]
      by_cases h : n = s
      · simp [h]
      · have : (n == s) = false := by simp [h]
        rw [this, ih (k + 1)]
        cases ns.idxOf? s with
        | none => rfl
        | some i => simp [Nat.add_comm, Nat.add_left_comm]
  have := gen 0
  simpa using this

theorem find_strings (names : List (List Byte)) (hlen : names.length < 2^64) (i : U64) :
    (tabOf names).strings.find? (fun p => p.1 == i) = (names[i.toNat]?).map (fun s => (i, s)) := by
  show (names.zipIdx.map _).find? _ = _
  have gen : ∀ k, k + names.length < 2^64 → k ≤ i.toNat →
      ((names.zipIdx k).map (fun p => (BitVec.ofNat 64 p.2, p.1))).find? (fun p => p.1 == i) =
      (names[i.toNat - k]?).map (fun s => (i, s)) := by
    induction names with
    | nil => intro k _ _; simp
    | cons n ns ih =>
      intro k hk hki
      simp only [List.length_cons] at hk hlen
      simp only [List.zipIdx_cons, List.map_cons, List.find?_cons]
      by_cases h : k = i.toNat
      · subst h; simp
      · have hne : (BitVec.ofNat 64 k == i) = false := by
          simp only [beq_eq_false_iff_ne, ne_eq]
          intro hh
          apply h
          rw [← hh, BitVec.toNat_ofNat, Nat.mod_eq_of_lt (by omega)]
        rw [hne, ih (by omega) (k + 1) (by omega) (by omega)]
        have : i.toNat - k = (i.toNat - (k + 1)) + 1 := by omega
        rw [this, List.getElem?_cons_succ]
  simpa using gen 0 (by omega) (by omega)

theorem intern_old {names : List (List Byte)} {s : List Byte} {i : Nat} (h : names.idxOf? s = some i) :
    (tabOf names).intern s = (tabOf names, BitVec.ofNat 64 i) := by
  unfold SymTab.intern
  rw [find_symbols, h]; rfl

theorem intern_new {names : List (List Byte)} {s : List Byte} (hlen : names.length < 2^64)
    (h : s ∉ names) :
    (tabOf names).intern s = (tabOf (names ++ [s]), BitVec.ofNat 64 names.length) := by
  unfold SymTab.intern
  have : names.idxOf? s = none := List.idxOf?_eq_none_iff.mpr h
  rw [find_symbols, this, find_strings _ hlen]
  have hn : (tabOf names).next.toNat = names.length := by
    show (BitVec.ofNat 64 names.length).toNat = _
    rw [BitVec.toNat_ofNat, Nat.mod_eq_of_lt (by omega)]
  rw [hn, List.getElem?_eq_none (Nat.le_refl _)]
  simp only [Option.map_none]
  rw [Prod.mk.injEq]
  refine ⟨?_, rfl⟩
  unfold tabOf
  simp [List.zipIdx_append, BitVec.ofNat_add]

/-- Names interned after `ss`, given those before. -/
def namesAfter (names : List (List Byte)) : List (List Byte) → List (List Byte)
  | [] => names
  | s :: ss => namesAfter (if s ∈ names then names else names ++ [s]) ss

theorem namesAfter_prefix (names ss : List (List Byte)) : ∃ t, namesAfter names ss = names ++ t := by
  induction ss generalizing names with
  | nil => exact ⟨[], by simp [namesAfter]⟩
  | cons s ss ih =>
    simp only [namesAfter]
    split
    · exact ih names
    · obtain ⟨t, ht⟩ := ih (names ++ [s])
      exact ⟨s :: t, by simp [ht]⟩

theorem namesAfter_length (names ss : List (List Byte)) :
    (namesAfter names ss).length ≤ names.length + ss.length := by
  induction ss generalizing names with
  | nil => simp [namesAfter]
  | cons s ss ih =>
    simp only [namesAfter, List.length_cons]
    split
    · have := ih names; omega
    · have := ih (names ++ [s]); simp at this; omega

theorem namesAfter_nodup {names : List (List Byte)} (h : names.Nodup) (ss : List (List Byte)) :
    (namesAfter names ss).Nodup := by
  induction ss generalizing names with
  | nil => exact h
  | cons s ss ih =>
    simp only [namesAfter]
    split
    · exact ih h
    · rename_i hs
      apply ih
      rw [List.nodup_append]
      refine ⟨h, by simp, ?_⟩
      intro a ha b hb
      simp at hb
      subst hb
      intro hab; subst hab; exact hs ha

theorem mem_namesAfter (names ss : List (List Byte)) (s : List Byte) :
    s ∈ namesAfter names ss ↔ s ∈ names ∨ s ∈ ss := by
  induction ss generalizing names with
  | nil => simp [namesAfter]
  | cons x ss ih =>
    simp only [namesAfter, List.mem_cons]
    rw [ih]
    split
    · rename_i h
      constructor
      · rintro (h1 | h1) <;> simp [h1]
      · rintro (h1 | h1 | h1)
        · simp [h1]
        · subst h1; simp [h]
        · simp [h1]
    · simp [or_assoc]

/-- Interning a sequence: the table holds the distinct names, each id is the index of its name. -/
theorem internAll_spec (ss : List (List Byte)) : ∀ (names : List (List Byte)), names.Nodup →
    names.length + ss.length < 2^64 →
    ∃ is, (tabOf names).internAll ss = (tabOf (namesAfter names ss), is) ∧ is.length = ss.length ∧
      ∀ (k : Nat) s, ss[k]? = some s →
        ∃ i, is[k]? = some (BitVec.ofNat 64 i) ∧ (namesAfter names ss)[i]? = some s ∧ i < 2^64 := by
  induction ss with
  | nil => intro names hd hl; exact ⟨[], rfl, rfl, by intro k s h; simp at h⟩
  | cons s ss ih =>
    intro names hd hl
    simp only [List.length_cons] at hl
    by_cases hs : s ∈ names
    · obtain ⟨i, hi⟩ : ∃ i, names.idxOf? s = some i := by
        cases h : names.idxOf? s with
        | none => exact absurd hs (List.idxOf?_eq_none_iff.mp h)
        | some i => exact ⟨i, rfl⟩
      obtain ⟨is, h1, h2, h3⟩ := ih names hd (by omega)
      have hgi : names[i]? = some s := by
        have := List.findIdx?_eq_some_iff_getElem.mp hi
        obtain ⟨hlt, he, -⟩ := this
        rw [List.getElem?_eq_getElem hlt]; simpa using he
      have hlt : i < names.length := by
        rcases Nat.lt_or_ge i names.length with h | h
        · exact h
        · rw [List.getElem?_eq_none h] at hgi; cases hgi
      refine ⟨BitVec.ofNat 64 i :: is, ?_, by simp [h2], ?_⟩
      · simp only [SymTab.internAll, intern_old hi, h1, namesAfter, if_pos hs]
      · intro k x hx
        cases k with
        | zero =>
          simp at hx; subst hx
          refine ⟨i, by simp, ?_, by omega⟩
          obtain ⟨t, ht⟩ := namesAfter_prefix names (s :: ss)
          rw [ht, List.getElem?_append_left hlt, hgi]
        | succ k =>
          have := h3 k x (by simpa using hx)
          simpa [namesAfter, hs] using this
    · have hd' : (names ++ [s]).Nodup := by
        have := namesAfter_nodup hd [s]
        simpa [namesAfter, hs] using this
      obtain ⟨is, h1, h2, h3⟩ := ih (names ++ [s]) hd' (by simp; omega)
      refine ⟨BitVec.ofNat 64 names.length :: is, ?_, by simp [h2], ?_⟩
      · simp only [SymTab.internAll, intern_new (by omega) hs, h1, namesAfter, if_neg hs]
      · intro k x hx
        cases k with
        | zero =>
          simp at hx; subst hx
          refine ⟨names.length, by simp, ?_, by omega⟩
          obtain ⟨t, ht⟩ := namesAfter_prefix (names ++ [s]) ss
          simp [namesAfter, hs, ht]
        | succ k =>
          have := h3 k x (by simpa using hx)
          simpa [namesAfter, hs] using this

/-- C36: for every sequence of `intern` calls, two calls return the same symbol exactly when they were
given the same text; the text of a returned symbol is the text interned; and looking a text up finds its
symbol if it was interned and raises an error otherwise.  (A 64-bit counter cannot serve 2^64 texts.) -/
theorem C36_interning_is_a_bijection (ss : List (List Byte)) (hlen : ss.length < 2^64) :
    ∃ t is, SymTab.empty.internAll ss = (t, is) ∧ is.length = ss.length ∧
      (∀ (j k : Nat) (sj sk : List Byte) (ij ik : U64), ss[j]? = some sj → ss[k]? = some sk →
        is[j]? = some ij → is[k]? = some ik → (ij = ik ↔ sj = sk)) ∧
      (∀ (k : Nat) (s : List Byte) (i : U64), ss[k]? = some s → is[k]? = some i →
        t.string i = .ok s ∧ t.id s = .ok i ∧ t.interned s = true) ∧
      (∀ s, s ∉ ss → t.interned s = false ∧ (t.id s).isThrow = true) := by
  obtain ⟨is, h1, h2, h3⟩ := internAll_spec ss [] List.nodup_nil (by simpa using hlen)
  have hle := namesAfter_length [] ss
  simp only [List.length_nil, Nat.zero_add] at hle
  have hnd := namesAfter_nodup (names := []) List.nodup_nil ss
  have hget : ∀ (i : Nat) (s : List Byte), (namesAfter [] ss)[i]? = some s → (namesAfter [] ss).idxOf? s = some i := by
    intro i s hi
    obtain ⟨hlt, he⟩ := List.getElem?_eq_some_iff.mp hi
    apply List.findIdx?_eq_some_iff_getElem.mpr
    refine ⟨hlt, by simp [he], ?_⟩
    intro j hj
    have hjl : j < (namesAfter [] ss).length := by omega
    simp only [Bool.not_eq_true, beq_eq_false_iff_ne, ne_eq]
    intro hh
    have := (List.getElem_inj (h₀ := hjl) (h₁ := hlt) hnd).mp (by rw [hh, he])
    omega
  refine ⟨_, is, h1, h2, ?_, ?_, ?_⟩
  · intro j k sj sk ij ik hj hk hij hik
    obtain ⟨a, ha, haa, hal⟩ := h3 j sj hj
    obtain ⟨b, hb, hbb, hbl⟩ := h3 k sk hk
    rw [hij] at ha; rw [hik] at hb
    cases ha; cases hb
    constructor
    · intro he
      have : a = b := by
        have := congrArg BitVec.toNat he
        rwa [BitVec.toNat_ofNat, BitVec.toNat_ofNat, Nat.mod_eq_of_lt hal, Nat.mod_eq_of_lt hbl] at this
      subst this
      rw [haa] at hbb; cases hbb; rfl
    · intro he
      subst he
      have e1 := hget a _ haa
      have e2 := hget b _ hbb
      rw [e1] at e2; cases e2; rfl
  · intro k s i hs hi
    obtain ⟨a, ha, haa, hal⟩ := h3 k s hs
    rw [hi] at ha; cases ha
    have hid : (tabOf (namesAfter [] ss)).id s = .ok (BitVec.ofNat 64 a) := by
      unfold SymTab.id
      rw [find_symbols, hget a s haa]; rfl
    refine ⟨?_, hid, ?_⟩
    · unfold SymTab.string
      rw [find_strings _ (by omega)]
      rw [BitVec.toNat_ofNat, Nat.mod_eq_of_lt hal, haa]; rfl
    · unfold SymTab.interned
      rw [List.any_eq_true]
      unfold SymTab.id at hid
      cases hf : (tabOf (namesAfter [] ss)).symbols.find? (fun p => p.1 == s) with
      | none => rw [hf] at hid; cases hid
      | some p => exact ⟨p, List.mem_of_find?_eq_some hf, by simpa using List.find?_some hf⟩
  · intro s hs
    have hno : (tabOf (namesAfter [] ss)).symbols.find? (fun p => p.1 == s) = none := by
      rw [find_symbols]
      have : (namesAfter [] ss).idxOf? s = none := by
        apply List.idxOf?_eq_none_iff.mpr
        rw [mem_namesAfter]; simp [hs]
      rw [this]; rfl
    constructor
    · unfold SymTab.interned
      rw [List.any_eq_false]
      intro p hp
      have := List.find?_eq_none.mp hno p hp
      simpa using this
    · unfold SymTab.id
      rw [hno]; rfl

/-- C36, the other way: a symbol that no call returned has no text; asking for it raises an error. -/
theorem C36_unknown_symbol (ss : List (List Byte)) (hlen : ss.length < 2^64) (t : SymTab) (is : List U64)
    (h : SymTab.empty.internAll ss = (t, is)) (i : U64) (hi : i ∉ is) : (t.string i).isThrow = true := by
  obtain ⟨is', h1, h2, h3⟩ := internAll_spec ss [] List.nodup_nil (by simpa using hlen)
  have hle := namesAfter_length [] ss
  simp only [List.length_nil, Nat.zero_add] at hle
  have hnd := namesAfter_nodup (names := []) List.nodup_nil ss
  have h1' : SymTab.empty.internAll ss = (tabOf (namesAfter [] ss), is') := h1
  rw [h1'] at h
  injection h with ht his
  subst ht; subst his
  unfold SymTab.string
  rw [find_strings _ (by omega)]
  cases hs : (namesAfter [] ss)[i.toNat]? with
  | none => rfl
  | some s =>
    exfalso
    have hm : s ∈ ss := by
      have := List.mem_of_getElem? hs
      rw [mem_namesAfter] at this
      simpa using this
    obtain ⟨k, hk⟩ := List.getElem?_of_mem hm
    obtain ⟨a, ha, haa, hal⟩ := h3 k s hk
    obtain ⟨hl1, he1⟩ := List.getElem?_eq_some_iff.mp hs
    obtain ⟨hl2, he2⟩ := List.getElem?_eq_some_iff.mp haa
    have : i.toNat = a := (List.getElem_inj (h₀ := hl1) (h₁ := hl2) hnd).mp (by rw [he1, he2])
    apply hi
    have hx := List.mem_of_getElem? ha
    rw [← this, BitVec.ofNat_toNat, BitVec.setWidth_eq] at hx
    exact hx

example : (SymTab.empty.internAll [[97]]).1.string 1#64 = .throw "out_of_range" := rfl

/-- Re-interning after other names gives the first symbol again. -/
example : (SymTab.empty.internAll [[97], [98], [97], [99]]).2 = [0#64, 1#64, 0#64, 2#64] := rfl

end Ab.Edn
