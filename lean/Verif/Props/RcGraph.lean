import Verif.Proof.RcGraph
/-! C116: counted pointers inside counted objects. -/
namespace Ab.RcG
open Spec.RcG

/-! ### Proof -/

theorem sum_refs (a : Nat) : ∀ h : Heap,
    (h.map fun | some c => c.fields.count (some a) | none => 0).sum = h.refs.count (some a)
  | [] => rfl
  | x :: h => by
    rw [Heap.refs_cons, List.count_append, List.map_cons, List.sum_cons, sum_refs a h]
    cases x <;> rfl

theorem uses_eq (s : St) (a : Nat) : uses s a = s.vars.count (some a) + s.heap.refs.count (some a) := by
  exact congrArg (s.vars.count (some a) + ·) (sum_refs a s.heap)

theorem exact_of_inv {s : St} (i : Inv s.heap [] s.vars) : Exact s := by
  intro a
  have h := i.exact a
  simp only [List.count_nil] at h
  rw [uses_eq]
  refine ⟨fun c hc => ?_, fun hn => ?_⟩
  · rw [hc] at h
    have := i.pos a c hc
    simp only [cnt] at h
    omega
  · have : cnt s.heap[a]? = 0 := by
      unfold cnt
      split
      · rename_i c hc; exact absurd hc (hn c)
      · rfl
    omega

theorem inv_of_exact {s : St} (e : Exact s) : Inv s.heap [] s.vars := by
  refine ⟨fun a => ?_, fun a c hc => ?_⟩
  · have h := e a
    rw [uses_eq] at h
    simp only [List.count_nil]
    unfold cnt
    split
    · rename_i c hc; have := (h.1 c hc).1; omega
    · rename_i hn; have := h.2 hn; omega
  · have := (e a).1 c hc
    omega

/-- An outcome without a deleted object. -/
def Tame {α} : Outcome α → Prop
  | .ok _ => True
  | .ub w => Excused w
  | _ => False

theorem Fine.bind {α} {x : Outcome α} {f : α → Outcome St} (hx : Tame x) (hf : ∀ v, x = .ok v → Fine (f v)) :
    Fine (x >>= f) := by
  cases x <;> first | exact hf _ rfl | exact hx

theorem resolve_spec {s : St} (i : Inv s.heap [] s.vars) (t : Place) :
    (∃ l v, s.resolve t = .ok l ∧ At s v l ∧ Held s l ∧ (∀ x, l = .var x ↔ t = .var x) ∧
      (∀ a k, l = .cell a k → ∃ x, t = .fld x k ∧ s.vars[x]? = some (some a))) ∨
      ∃ w, s.resolve t = .ub w ∧ Excused w := by
  cases t with
  | var x =>
    by_cases h : x < s.vars.length
    · refine Or.inl ⟨.var x, s.vars[x], by simp only [St.resolve, if_pos h], ?_, trivial, by simp, nofun⟩
      exact List.getElem?_eq_some_iff.mpr ⟨h, rfl⟩
    · exact Or.inr ⟨noVar, by simp only [St.resolve, if_neg h], Or.inr (Or.inl rfl)⟩
  | fld x k =>
    simp only [St.resolve]
    cases hx : s.vars[x]? with
    | none => exact Or.inr ⟨noVar, rfl, Or.inr (Or.inl rfl)⟩
    | some p =>
      cases p with
      | none => exact Or.inr ⟨nullDeref, rfl, Or.inl rfl⟩
      | some a =>
        obtain ⟨c, hc⟩ := i.alive (a := a) (Or.inl (List.mem_of_getElem? hx))
        simp only [hc]
        by_cases hk : k < c.fields.length
        · refine Or.inl ⟨.cell a k, c.fields[k], by rw [if_pos hk], ⟨c, hc, ?_⟩, List.mem_of_getElem? hx,
            by simp, ?_⟩
          · exact List.getElem?_eq_some_iff.mpr ⟨hk, rfl⟩
          · intro a' k' e
            injection e with e1 e2
            subst e1; subst e2
            exact ⟨x, rfl, hx⟩
        · exact Or.inr ⟨noField, by rw [if_neg hk], Or.inr (Or.inr (Or.inl rfl))⟩

theorem resolve_tame {s : St} (i : Inv s.heap [] s.vars) (t : Place) : Tame (s.resolve t) := by
  rcases resolve_spec i t with ⟨l, v, e, _⟩ | ⟨w, e, hw⟩
  · rw [e]; trivial
  · rw [e]; exact hw

theorem resolve_ok {s : St} (i : Inv s.heap [] s.vars) {t : Place} {l : Loc} (h : s.resolve t = .ok l) :
    ∃ v, At s v l ∧ Held s l ∧ (∀ x, l = .var x ↔ t = .var x) ∧
      (∀ a k, l = .cell a k → ∃ x, t = .fld x k ∧ s.vars[x]? = some (some a)) := by
  rcases resolve_spec i t with ⟨l', v, e, r⟩ | ⟨w, e, hw⟩
  · rw [h] at e
    injection e with e
    subst e
    exact ⟨v, r⟩
  · rw [h] at e; cases e

/-- The object of the source is held by a variable that remains. -/
theorem apart_kept {s : St} (i : Inv s.heap [] s.vars) {t r : Place} {lt lr : Loc} (ht : s.resolve t = .ok lt)
    (hr : s.resolve r = .ok lr) (ap : Apart s t r) :
    lr ≠ lt ∧ ∀ a k, lr = .cell a k → some a ∈ kept s lt := by
  refine ⟨fun e => ap.1 lt ht (e ▸ hr), fun a k e => ?_⟩
  obtain ⟨vt, _, _, tv, tc⟩ := resolve_ok i ht
  obtain ⟨vr, _, hh, rv, rc⟩ := resolve_ok i hr
  obtain ⟨y, ey, hy⟩ := rc a k e
  cases lt with
  | cell b j => subst e; exact hh
  | var x =>
    have htx := (tv x).mp rfl
    have hxy : x ≠ y := fun e => ap.2 x k ⟨htx, e ▸ ey⟩
    refine List.mem_of_getElem? (i := y) ?_
    show (s.vars.set x none)[y]? = _
    rw [List.getElem?_set, if_neg hxy]
    exact hy

/-- Overwriting a location and counting the new reference. -/
theorem write_retain {s0 : St} {lt : Loc} {v : Ptr} (i : Inv s0.heap [] s0.vars) (h0 : At s0 none lt)
    (hv : ∀ a : Nat, v = some a → ∃ c, s0.heap[a]? = some (some c)) :
    Fine (do
      let h ← retain (upd s0 v lt).heap v
      .ok { upd s0 v lt with heap := h }) := by
  have i1 : Inv (upd s0 v lt).heap [v] (upd s0 v lt).vars := h0.upd_inv v i (fun a => by simp)
  have hv' : ∀ a : Nat, v = some a → ∃ c, (upd s0 v lt).heap[a]? = some (some c) := by
    intro a ha
    obtain ⟨c, hc⟩ := hv a ha
    cases lt with
    | var x => exact ⟨c, hc⟩
    | cell b k =>
      obtain ⟨d, h1, h2⟩ := h0
      simp only [upd, h1]
      rw [get_set h1]
      split
      · exact ⟨_, rfl⟩
      · exact ⟨c, hc⟩
  rcases retain_spec i1 hv' with ⟨h', e, i2, _⟩ | e
  · rw [e]
    exact exact_of_inv i2
  · rw [e]
    exact Or.inr (Or.inr (Or.inr rfl))

theorem readVars_spec {s : St} : ∀ ys : List Nat,
    (∃ vs, s.readVars ys = .ok vs ∧ ∀ v ∈ vs, v ∈ s.vars) ∨ s.readVars ys = .ub noVar
  | [] => Or.inl ⟨[], rfl, nofun⟩
  | y :: ys => by
    simp only [St.readVars, St.read]
    cases hy : s.vars[y]? with
    | none => exact Or.inr rfl
    | some v =>
      rcases readVars_spec (s := s) ys with ⟨vs, e, hv⟩ | e
      · refine Or.inl ⟨v :: vs, by rw [e]; rfl, ?_⟩
        intro q hq
        rcases List.mem_cons.mp hq with h | h
        · exact h ▸ List.mem_of_getElem? hy
        · exact hv q h
      · exact Or.inr (by rw [e]; rfl)

theorem same_alive {h h' : Heap} (s : Same h' h) {a : Nat} {c : Obj} (hc : h[a]? = some (some c)) :
    ∃ c', h'[a]? = some (some c') := by
  have := s.2 a
  rw [hc] at this
  cases h2 : h'[a]? with
  | none => rw [h2] at this; cases this
  | some o =>
    cases o with
    | none => rw [h2] at this; cases this
    | some c' => exact ⟨c', rfl⟩

theorem retainAll_spec {r : List Ptr} : ∀ (vs : List Ptr) {h : Heap} {l : List Ptr}, Inv h (vs ++ l) r →
    (∀ a : Nat, some a ∈ vs → ∃ c, h[a]? = some (some c)) →
    (∃ h', retainAll h vs = .ok h' ∧ Inv h' l r ∧ h'.length = h.length) ∨ retainAll h vs = .ub overflow
  | [], h, l, i, _ => Or.inl ⟨h, rfl, i, rfl⟩
  | v :: vs, h, l, i, hv => by
    rcases retain_spec (l := vs ++ l) i (fun a ha => hv a (by simp [ha])) with ⟨h1, e1, i1, s1⟩ | e
    · rcases retainAll_spec vs i1 (fun a ha => by
        obtain ⟨c, hc⟩ := hv a (by simp [ha])
        exact same_alive s1 hc) with ⟨h2, e2, i2, l2⟩ | e2
      · exact Or.inl ⟨h2, by simp only [retainAll, e1, Outcome.ok_bind, e2], i2, l2.trans s1.1⟩
      · exact Or.inr (by simp only [retainAll, e1, Outcome.ok_bind, e2])
    · exact Or.inr (by simp only [retainAll, e]; rfl)

theorem out_of_heap {h : Heap} {r : List Ptr} (i : Inv h [] r) : r.count (some h.length) = 0 ∧
    h.refs.count (some h.length) = 0 := by
  have := i.exact h.length
  rw [show h[h.length]? = none from by simp] at this
  simp only [cnt, List.count_nil] at this
  omega

theorem make_fine {s : St} (i : Inv s.heap [] s.vars) (x : Nat) (ys : List Nat) : Fine (step s (.make x ys)) := by
  unfold step
  dsimp only
  rcases readVars_spec (s := s) ys with ⟨vs, e, hv⟩ | e
  · rw [e, Outcome.ok_bind]
    have hout := out_of_heap i
    rcases retainAll_spec (h := s.heap) (l := []) (r := vs ++ s.vars) vs
      (i.perm (fun a => by simp only [List.count_append, List.count_nil]; omega))
      (fun a ha => i.alive (Or.inl (hv _ ha))) with ⟨h, e1, i1, hl⟩ | e1
    · rw [e1, Outcome.ok_bind]
      have i2 : Inv (h ++ [some ⟨1, vs⟩]) [] (some s.heap.length :: s.vars) := by
        refine ⟨fun a => ?_, fun a c hc => ?_⟩
        · have h3 := i1.exact a
          rw [count_cons_ite, Heap.refs_append, List.count_append]
          rw [List.count_append] at h3
          have h4 : (Heap.refs [some ⟨1, vs⟩]).count (some a) = vs.count (some a) := by
            simp [Heap.refs]
          simp only [List.count_nil] at *
          by_cases ea : a = s.heap.length
          · subst ea
            rw [if_pos rfl]
            rw [show h[s.heap.length]? = none from by rw [← hl]; simp] at h3
            rw [show (h ++ [some (⟨1, vs⟩ : Obj)])[s.heap.length]? = some (some ⟨1, vs⟩) from by rw [← hl]; simp]
            simp only [cnt] at *
            omega
          · rw [if_neg ea]
            have : cnt (h ++ [some (⟨1, vs⟩ : Obj)])[a]? = cnt h[a]? := by
              by_cases hlt : a < h.length
              · rw [List.getElem?_append_left hlt]
              · rw [List.getElem?_eq_none (by simp; omega), List.getElem?_eq_none (by omega)]
            omega
        · by_cases hlt : a < h.length
          · rw [List.getElem?_append_left hlt] at hc
            exact i1.pos a c hc
          · rw [List.getElem?_append_right (by omega)] at hc
            cases hk : a - h.length with
            | zero => rw [hk] at hc; injection hc with hc; injection hc with hc; subst hc; exact Nat.one_pos
            | succ m => rw [hk] at hc; simp at hc
      simp only [St.read]
      cases hx : s.vars[x]? with
      | none => exact Or.inr (Or.inl rfl)
      | some old =>
        obtain ⟨h', e2, i3, sub⟩ := release_spec ((h ++ [some (⟨1, vs⟩ : Obj)]).refs.length + 1)
          (h ++ [some ⟨1, vs⟩]) [old] (s.vars.set x (some s.heap.length)) (i2.perm (fun a => by
            have := set_count hx (some s.heap.length) (some a)
            rw [List.count_append]
            simp only [List.count_cons, List.count_nil] at *; omega)) (by simp)
        have hlx := (List.getElem?_eq_some_iff.mp hx).1
        show Fine (drop _ old >>= _)
        unfold drop
        rw [e2, Outcome.ok_bind]
        simp only [St.write, if_pos hlx]
        exact exact_of_inv i3
    · rw [e1]; exact Or.inr (Or.inr (Or.inr rfl))
  · rw [e]; exact Or.inr (Or.inl rfl)

theorem alive_of_at {s : St} (i : Inv s.heap [] s.vars) {v : Ptr} {l : Loc} (h : At s v l) :
    ∀ a : Nat, v = some a → ∃ c, s.heap[a]? = some (some c) := by
  intro a e
  subst e
  exact i.alive h.mem

theorem step_fine {s : St} (i : Inv s.heap [] s.vars) (o : Op) (c : CarefulStep s o) : Fine (step s o) := by
  cases o with
  | make x ys => exact make_fine i x ys
  | assign t r =>
    refine Fine.bind (resolve_tame i t) fun lt ht => ?_
    refine Fine.bind (resolve_tame i r) fun lr hr => ?_
    obtain ⟨old, ta, th, _⟩ := resolve_ok i ht
    obtain ⟨v, ra, rh, _⟩ := resolve_ok i hr
    obtain ⟨hne, hk⟩ := apart_kept i ht hr c
    obtain ⟨h', e, s0, i0, n0, _, wr, fr⟩ := drop_loc i ta th
    obtain ⟨r1, r0⟩ := fr lr v hne ra hk
    rw [ta.read, Outcome.ok_bind, e, Outcome.ok_bind]
    dsimp only
    rw [r1.read, Outcome.ok_bind, wr, Outcome.ok_bind]
    exact write_retain i0 n0 (alive_of_at i0 r0)
  | assignPtr t r =>
    refine Fine.bind (resolve_tame i t) fun lt ht => ?_
    refine Fine.bind (resolve_tame i r) fun lr hr => ?_
    obtain ⟨old, ta, th, _⟩ := resolve_ok i ht
    obtain ⟨v, ra, rh, _⟩ := resolve_ok i hr
    obtain ⟨hne, hk⟩ := apart_kept i ht hr c
    obtain ⟨h', e, s0, i0, n0, _, wr, fr⟩ := drop_loc i ta th
    obtain ⟨r1, r0⟩ := fr lr v hne ra hk
    rw [ra.read, Outcome.ok_bind, ta.read, Outcome.ok_bind, e, Outcome.ok_bind]
    dsimp only
    rw [wr, Outcome.ok_bind]
    exact write_retain i0 n0 (alive_of_at i0 r0)
  | moveAssign t r =>
    refine Fine.bind (resolve_tame i t) fun lt ht => ?_
    refine Fine.bind (resolve_tame i r) fun lr hr => ?_
    obtain ⟨old, ta, th, _⟩ := resolve_ok i ht
    obtain ⟨v, ra, rh, _⟩ := resolve_ok i hr
    obtain ⟨hne, hk⟩ := apart_kept i ht hr c
    obtain ⟨h', e, s0, i0, n0, _, wr, fr⟩ := drop_loc i ta th
    obtain ⟨r1, r0⟩ := fr lr v hne ra hk
    rw [ta.read, Outcome.ok_bind, e, Outcome.ok_bind]
    dsimp only
    rw [r1.read, Outcome.ok_bind, wr, Outcome.ok_bind]
    have r2 := n0.upd_other v hne r0
    rw [r2.write]
    have i1 : Inv (upd s0 v lt).heap [v] (upd s0 v lt).vars := n0.upd_inv v i0 (fun a => by simp)
    exact exact_of_inv (r2.upd_inv none i1 (fun a => by simp))
  | clear t =>
    refine Fine.bind (resolve_tame i t) fun lt ht => ?_
    obtain ⟨old, ta, th, _⟩ := resolve_ok i ht
    obtain ⟨h', e, s0, i0, n0, _, wr, _⟩ := drop_loc i ta th
    rw [ta.read, Outcome.ok_bind, e, Outcome.ok_bind, wr]
    exact exact_of_inv (n0.upd_inv none i0 (fun a => by simp))
  | use t =>
    refine Fine.bind (resolve_tame i t) fun lt ht => ?_
    obtain ⟨v, ta, _⟩ := resolve_ok i ht
    rw [ta.read, Outcome.ok_bind]
    cases v with
    | none => exact Or.inl rfl
    | some a =>
      obtain ⟨c, hc⟩ := i.alive ta.mem
      simp only [hc]
      exact exact_of_inv i

theorem run_fine : ∀ (os : List Op) {s : St}, Exact s → Careful s os → Fine (run s os)
  | [], s, e, _ => e
  | o :: os, s, e, c => by
    have h := step_fine (inv_of_exact e) o c.1
    unfold run
    cases h1 : step s o with
    | ok s' =>
      rw [h1] at h
      exact run_fine os h (c.2 s' h1)
    | ub w => rw [h1] at h; exact h
    | throw _ => rw [h1] at h; exact h
    | trap _ => rw [h1] at h; exact h
    | fuel => rw [h1] at h; exact h

theorem init_exact (n : Nat) : Exact (St.init n) := by
  apply exact_of_inv
  refine ⟨fun a => ?_, fun a c hc => by simp [St.init] at hc⟩
  simp only [St.init, Heap.refs, List.flatMap_nil, List.count_nil, List.getElem?_nil, cnt]
  rw [List.count_replicate]
  simp

/-! ### Property -/

/-- **C116 (full statement, false).** Whatever a program does with counted pointers to objects that contain counted pointers, no deleted
object is used, and the objects that exist are those referred to, each counting its references. -/
def C116_full : Prop := ∀ (n : Nat) (os : List Op), Fine (run (St.init n) os)

/-- A list of two objects, its first held by a variable: `p = p->next`. -/
def nextProgram : List Op := [.make 0 [], .make 1 [0], .clear (.var 0), .assign (.var 1) (.fld 1 0)]

/-- **C116 (negation).** `p = p->next` uses a deleted object. -/
theorem C116_negation : ¬ C116_full := by
  intro h
  have := h 2 nextProgram
  rw [show run (St.init 2) nextProgram = .ub deleted from by decide +kernel] at this
  rcases this with h | h | h | h <;> exact absurd h (by decide)

/-- **C116 (assignments between unrelated places).** A program none of whose assignments is from a place to itself or from a member of the
object that the variable assigned to refers to never uses a deleted object, and the objects that exist are those referred to by variables
and by members of objects that exist, each counting its references. -/
theorem C116_careful_partial (n : Nat) (os : List Op) (h : Careful (St.init n) os) : Fine (run (St.init n) os) :=
  run_fine os (init_exact n) h

/-- **C116 (no leaks but cycles).** When no variable refers to anything and the members of the objects that exist form no cycle, all
objects have been deleted. -/
theorem C116_no_leak_partial (n : Nat) (os : List Op) (s : St) (h : Careful (St.init n) os)
    (hr : run (St.init n) os = .ok s) (hv : ∀ v ∈ s.vars, v = none)
    (rank : Nat → Nat) (hrank : ∀ (a b : Nat) (c : Obj), s.heap[a]? = some (some c) → some b ∈ c.fields → rank b < rank a) :
    ∀ o ∈ s.heap, o = none := by
  have hf := C116_careful_partial n os h
  rw [hr] at hf
  have e : Exact s := hf
  have i := inv_of_exact e
  -- an object that exists is referred to by one of greater rank
  have up : ∀ (a : Nat) (c : Obj), s.heap[a]? = some (some c) →
      ∃ (b : Nat) (d : Obj), s.heap[b]? = some (some d) ∧ rank a < rank b := by
    intro a c hc
    have h1 := (e a).1 c hc
    rw [uses_eq] at h1
    have h2 : s.vars.count (some a) = 0 := by
      rw [List.count_eq_zero]
      intro hm
      exact absurd (hv _ hm) (by simp)
    have h3 : some a ∈ s.heap.refs := List.count_pos_iff.mp (by omega)
    obtain ⟨o, ho, hm⟩ := List.mem_flatMap.mp h3
    cases o with
    | none => simp at hm
    | some d =>
      obtain ⟨b, hb⟩ := List.mem_iff_getElem?.mp ho
      exact ⟨b, d, hb, hrank b a d hb hm⟩
  -- ranks of the heap are bounded
  obtain ⟨m, hm⟩ : ∃ m, ∀ b, b < s.heap.length → rank b ≤ m := by
    have : ∀ k, ∃ m, ∀ b, b < k → rank b ≤ m := by
      intro k
      induction k with
      | zero => exact ⟨0, fun b hb => absurd hb (by omega)⟩
      | succ k ih =>
        obtain ⟨m, hm⟩ := ih
        refine ⟨max m (rank k), fun b hb => ?_⟩
        by_cases eb : b = k
        · subst eb; exact Nat.le_max_right _ _
        · exact Nat.le_trans (hm b (by omega)) (Nat.le_max_left _ _)
    exact this _
  have none_alive : ∀ (j : Nat) (a : Nat) (c : Obj), m < rank a + j → ¬ s.heap[a]? = some (some c) := by
    intro j
    induction j with
    | zero =>
      intro a c hj hc
      have := hm a (List.getElem?_eq_some_iff.mp hc).1
      omega
    | succ j ih =>
      intro a c hj hc
      obtain ⟨b, d, hb, hlt⟩ := up a c hc
      exact ih b d (by omega) hb
  intro o ho
  cases o with
  | none => rfl
  | some c =>
    obtain ⟨a, ha⟩ := List.mem_iff_getElem?.mp ho
    exact absurd ha (none_alive (m + 1) a c (by omega))

/-- **C116 (`p = p->f`).** Exactly when nothing else refers to the object of `p`, it uses a deleted object; otherwise it does what it
should. -/
theorem C116_next (s : St) (e : Exact s) (x k a : Nat) (c : Obj) (hx : s.vars[x]? = some (some a))
    (hc : s.heap[a]? = some (some c)) (hk : k < c.fields.length) :
    (step s (.assign (.var x) (.fld x k)) = .ub deleted ↔ uses s a = 1) ∧
      (1 < uses s a → Fine (step s (.assign (.var x) (.fld x k)))) := by
  have i := inv_of_exact e
  have hlx := (List.getElem?_eq_some_iff.mp hx).1
  have hcu := (e a).1 c hc
  have hlt : s.resolve (.var x) = .ok (.var x) := by simp only [St.resolve, if_pos hlx]
  have hlr : s.resolve (.fld x k) = .ok (.cell a k) := by simp only [St.resolve, hx, hc, if_pos hk]
  have hat : At s (some a) (.var x) := hx
  have hatr : At s c.fields[k] (.cell a k) := ⟨c, hc, List.getElem?_eq_some_iff.mpr ⟨hk, rfl⟩⟩
  obtain ⟨h', ed, s0, i0, n0, kv, wr, fr⟩ := drop_loc i hat trivial
  have heq : step s (.assign (.var x) (.fld x k)) = (do
      let s : St := { s with heap := h' }
      let v ← s.read (.cell a k)
      let s ← s.write v (.var x)
      let h ← retain s.heap v
      .ok { s with heap := h }) := by
    unfold step
    dsimp only
    rw [hlt, Outcome.ok_bind, hlr, Outcome.ok_bind, hat.read, Outcome.ok_bind, ed, Outcome.ok_bind]
  have many : 1 < uses s a → Fine (step s (.assign (.var x) (.fld x k))) := by
    intro hu
    -- the counter is only decremented
    have hd : drop s.heap (some a) = .ok (s.heap.set a (some { c with count := c.count - 1 })) := by
      unfold drop
      simp only [release, hc]
      rw [if_neg (by omega), if_neg (by omega)]
    rw [hd] at ed
    injection ed with ed
    have hr1 : At { s with heap := h' } c.fields[k] (.cell a k) := by
      refine ⟨{ c with count := c.count - 1 }, ?_, List.getElem?_eq_some_iff.mpr ⟨hk, rfl⟩⟩
      rw [← ed]
      show (s.heap.set _ _)[a]? = _
      rw [get_set hc, if_pos rfl]
    rw [heq]
    dsimp only
    rw [hr1.read, Outcome.ok_bind, wr, Outcome.ok_bind]
    refine write_retain i0 n0 (fun b hb => ?_)
    -- `s0` has the same heap
    have hs0 : s0.heap = h' := by
      have h1 := wr none
      have hl0 : x < s.vars.length := hlx
      simp only [St.write, if_pos hl0] at h1
      injection h1 with h1
      have := congrArg St.heap h1
      exact this.symm
    rw [hs0, ← ed]
    have hb' : some b ∈ s.heap.refs :=
      List.mem_flatMap.mpr ⟨some c, List.mem_of_getElem? hc, hb ▸ List.getElem_mem hk⟩
    obtain ⟨d, hdb⟩ := i.alive (Or.inr hb')
    rw [get_set hc]
    split
    · exact ⟨_, rfl⟩
    · exact ⟨d, hdb⟩
  refine ⟨⟨fun h => ?_, fun hu => ?_⟩, many⟩
  · refine Classical.byContradiction fun hne => ?_
    have := many (by omega)
    rw [h] at this
    rcases this with h | h | h | h <;> exact absurd h (by decide)
  · have hd : drop s.heap (some a) = release s.heap.refs.length (s.heap.set a none) (c.fields ++ []) := by
      unfold drop
      simp only [release, hc]
      rw [if_pos (by omega)]
    have hinv : Inv (s.heap.set a none) [] (c.fields ++ [] ++ s.vars.set x none) := by
      refine Inv.delete (w := []) (i.perm (fun b => ?_)) hc (by omega)
      have := set_count hx none (some b)
      simp only [List.cons_append, List.nil_append, List.count_cons, List.count_nil] at *
      simp at this ⊢
      omega
    have hlen := refs_set_length s.heap a _ none hc
    simp only [refsOf, List.length_nil] at hlen
    obtain ⟨h2, e2, _, sub⟩ := release_spec s.heap.refs.length (s.heap.set a none) (c.fields ++ []) (s.vars.set x none)
      hinv (by simp; omega)
    rw [hd, e2] at ed
    injection ed with ed
    subst ed
    rw [heq]
    have hdead : ∀ c', ¬ h2[a]? = some (some c') := by
      intro c' hc'
      obtain ⟨d, hd, _⟩ := sub.2 a c' hc'
      rw [get_set hc, if_pos rfl] at hd
      cases hd
    have : St.read { s with heap := h2 } (.cell a k) = .ub deleted := by
      simp only [St.read]
    dsimp only
    rw [this]
    rfl

/-! ### Concrete cases -/

/-- A list of three objects is built, walked with a second variable, cut in the middle, and given up. -/
def listProgram : List Op :=
  [.make 0 [3], .make 0 [0], .make 0 [0], .assign (.var 1) (.fld 0 0), .assign (.var 2) (.fld 1 0),
    .moveAssign (.fld 0 0) (.var 2), .clear (.var 1), .use (.fld 0 0), .clear (.var 0)]

def heapOf : Outcome St → Option Heap
  | .ok s => some s.heap
  | _ => none

def varsOf : Outcome St → Option (List Ptr)
  | .ok s => some s.vars
  | _ => none

/-- Before the last operation two of the three objects remain; after it none. -/
example : heapOf (run (St.init 4) (listProgram.take 8)) =
      some [some ⟨1, [none]⟩, none, some ⟨1, [some 0]⟩] ∧
    heapOf (run (St.init 4) listProgram) = some [none, none, none] ∧
    varsOf (run (St.init 4) listProgram) = some [none, none, none, none] := by decide +kernel

/-- Decides whether an assignment is careful. -/
def apartB (s : St) (t r : Place) : Bool :=
  (match s.resolve t, s.resolve r with
    | .ok l, .ok l' => l != l'
    | _, _ => true) &&
  (match t, r with
    | .var x, .fld y _ => x != y
    | _, _ => true)

theorem apart_of_b {s : St} {t r : Place} (h : apartB s t r = true) : Apart s t r := by
  unfold apartB at h
  rw [Bool.and_eq_true] at h
  refine ⟨fun l h1 h2 => ?_, fun x k e => ?_⟩
  · rw [h1, h2] at h
    simp at h
  · rw [e.1, e.2] at h
    simp at h

def carefulB (s : St) : List Op → Bool
  | [] => true
  | o :: os =>
    (match o with
      | .assign t r => apartB s t r
      | .assignPtr t r => apartB s t r
      | .moveAssign t r => apartB s t r
      | _ => true) &&
    match step s o with
    | .ok s' => carefulB s' os
    | _ => true

theorem careful_of_b : ∀ (os : List Op) (s : St), carefulB s os = true → Careful s os
  | [], _, _ => trivial
  | o :: os, s, h => by
    unfold carefulB at h
    rw [Bool.and_eq_true] at h
    refine ⟨?_, fun s' hs => careful_of_b os s' ?_⟩
    · cases o <;> first | trivial | exact apart_of_b h.1
    · have := h.2
      rw [hs] at this
      exact this

/-- The program is careful, so `C116_careful_partial` is about it. -/
example : Careful (St.init 4) listProgram := careful_of_b _ _ (by decide +kernel)

/-- `p = p->next` while the list is also held by another variable, and while it is not. -/
example : varsOf (run (St.init 3) [.make 0 [], .make 1 [0], .assign (.var 2) (.var 1), .assign (.var 1) (.fld 1 0)]) =
      some [some 0, some 0, some 1] ∧
    run (St.init 3) [.make 0 [], .make 1 [0], .assign (.var 1) (.fld 1 0)] = .ub deleted := by decide +kernel

/-- A cycle is not deleted. -/
example : heapOf (run (St.init 1) [.make 0 [0], .assign (.fld 0 0) (.var 0), .clear (.var 0)]) =
    some [some ⟨1, [some 0]⟩] := by decide +kernel

end Ab.RcG
