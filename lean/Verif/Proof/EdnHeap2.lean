import Verif.Proof.EdnHeap
/-! Every step keeps the use counts exact; live nodes are those reachable or on a cycle. -/
namespace Ab.EdnHeap

open Spec Edn

theorem fine_of {h : Heap} {vars : List Ptr} (i : Inv h vars) : Fine (.ok ⟨h, vars⟩) := i

theorem refs_body (c : Cell) (b : Body) (p : Ptr) :
    ({ c with body := b } : Cell).refs.count p + c.body.refs.count p = c.refs.count p + b.refs.count p := by
  simp only [Cell.refs, List.count_append]; omega

theorem step_fine {L : HLib} (hL : Orderly L) (n : Nat) {s : State} (i : Inv s.heap s.vars) (o : Op) :
    Fine (step L n s o) := by
  have hval : ∀ {p}, p ∈ s.vars → Valid s.heap p := fun hp => i.valid (Or.inl hp)
  have app : ∀ (p : Ptr) (r : List Ptr) (a : Addr), (p :: r).count (some a) = [p].count (some a) + r.count (some a) := by
    intro p r a; rw [← List.count_append]; rfl
  cases o with
  | atom x a => exact fresh_fine i (fun p hp => by cases hp)
  | list x ys => exact Fine.bind (varAll_tame s ys) fun ps hps => fresh_fine i (varAll_mem hps)
  | vec x ys => exact Fine.bind (varAll_tame s ys) fun ps hps => fresh_fine i (varAll_mem hps)
  | map x => exact fresh_fine i (fun p hp => by cases hp)
  | copy x y =>
    refine Fine.bind (var_tame s y) fun p hp => ?_
    obtain ⟨h', e, i', _⟩ := retain_spec i (Or.inl (var_mem hp))
    rw [e, Outcome.ok_bind]
    exact assign_fine i'
  | null x => exact assign_fine (i.perm (fun a => by simp))
  | push c y =>
    refine Fine.bind (var_tame s c) fun p hp => Fine.bind (var_tame s y) fun q hq => Fine.bind (addr_tame p) fun a ha => ?_
    have hpa := addr_ok ha; subst hpa
    obtain ⟨h', e, i', b'⟩ := retain_spec i (Or.inl (var_mem hq))
    rw [e, Outcome.ok_bind]
    refine Fine.bind (deref_tame (i'.valid (Or.inl (List.mem_cons_of_mem _ (var_mem hp))))) fun cell hcell => ?_
    obtain ⟨a', ea, hc⟩ := deref_ok hcell
    injection ea with ea; subst ea
    refine Fine.bind (elements_tame _) fun xs hxs => ?_
    obtain ⟨r1, r2⟩ := elements_refs hxs
    refine fine_of (i'.update hc (d := { cell with body := _ }) (show 0 < cell.count from i'.pos _ cell hc) fun b => ?_)
    have := refs_body cell (withElements cell.body (xs ++ [q])) (some b)
    rw [r1, r2, List.count_append] at this
    rw [app q]
    simp only; omega
  | setAt c j y =>
    refine Fine.bind (var_tame s c) fun p hp => Fine.bind (var_tame s y) fun q hq => Fine.bind (addr_tame p) fun a ha => ?_
    have hpa := addr_ok ha; subst hpa
    refine Fine.bind (deref_tame (hval (var_mem hp))) fun cell0 hcell0 => Fine.bind (elements_tame _) fun xs hxs => ?_
    obtain ⟨a', ea, hc0⟩ := deref_ok hcell0
    injection ea with ea; subst ea
    cases hold : xs[j]? with
    | none => trivial
    | some old =>
      obtain ⟨h', e, i', b'⟩ := retain_spec i (Or.inl (var_mem hq))
      simp only
      rw [e, Outcome.ok_bind]
      refine Fine.bind (deref_tame (i'.valid (Or.inl (List.mem_cons_of_mem _ (var_mem hp))))) fun cell hcell => ?_
      obtain ⟨a', ea, hc⟩ := deref_ok hcell
      injection ea with ea; subst ea
      obtain ⟨c1, hc1, e1, e2⟩ := bare_deref b' hc
      rw [hc0] at hc1; injection hc1 with hc1; injection hc1 with hc1; subst hc1
      rw [e1] at hxs
      obtain ⟨r1, r2⟩ := elements_refs hxs
      have i2 : Inv (setBody h' a cell (withElements cell.body (xs.set j q))) ([old] ++ s.vars) := by
        refine i'.update hc (d := { cell with body := _ }) (show 0 < cell.count from i'.pos _ cell hc) fun b => ?_
        have h1 := refs_body cell (withElements cell.body (xs.set j q)) (some b)
        have h2 := set_count hold q (some b)
        rw [r1, r2] at h1
        rw [app q, List.count_append]
        simp only; omega
      obtain ⟨h2, e2, i3, _⟩ := drop_spec i2
      rw [e2]
      exact i3
  | getAt x c j =>
    refine Fine.bind (var_tame s c) fun p hp => Fine.bind (deref_tame (hval (var_mem hp))) fun cell hcell =>
      Fine.bind (elements_tame _) fun xs hxs => ?_
    obtain ⟨a', rfl, hc⟩ := deref_ok hcell
    cases hold : xs[j]? with
    | none => trivial
    | some q =>
      have hm : q ∈ cell.refs := by
        unfold Cell.refs; rw [(elements_refs hxs).1]
        exact List.mem_append_left _ (List.mem_of_getElem? hold)
      obtain ⟨h', e, i', b'⟩ := retain_spec i (Or.inr (Or.inl (mem_refs hc hm)))
      simp only
      rw [e, Outcome.ok_bind]
      exact assign_fine i'
  | clear c =>
    refine Fine.bind (var_tame s c) fun p hp => Fine.bind (addr_tame p) fun a ha => ?_
    have hpa := addr_ok ha; subst hpa
    refine Fine.bind (deref_tame (hval (var_mem hp))) fun cell hcell => Fine.bind (elements_tame _) fun xs hxs => ?_
    obtain ⟨a', ea, hc⟩ := deref_ok hcell
    injection ea with ea; subst ea
    obtain ⟨r1, r2⟩ := elements_refs hxs
    have i2 : Inv (setBody s.heap a cell (withElements cell.body [])) (xs ++ s.vars) := by
      refine i.update hc (d := { cell with body := _ }) (show 0 < cell.count from i.pos _ cell hc) fun b => ?_
      have h1 := refs_body cell (withElements cell.body []) (some b)
      rw [r1, r2] at h1
      rw [List.count_append]
      simp only [List.count_nil] at *; omega
    obtain ⟨h2, e2, i3, _⟩ := drop_spec i2
    rw [e2]
    exact i3
  | setAtom c v =>
    refine Fine.bind (var_tame s c) fun p hp => Fine.bind (addr_tame p) fun a ha => ?_
    have hpa := addr_ok ha; subst hpa
    refine Fine.bind (deref_tame (hval (var_mem hp))) fun cell hcell => ?_
    obtain ⟨a', ea, hc⟩ := deref_ok hcell
    injection ea with ea; subst ea
    split
    · rename_i hk
      have hr : cell.body.refs = [] := by
        revert hk
        cases cell.body <;> cases v <;> first | exact fun _ => rfl | (intro h; simp [Body.kind, Atom.node, Node.kind] at h)
      refine fine_of (i.update hc (d := { cell with body := _ }) (show 0 < cell.count from i.pos _ cell hc) fun b => ?_)
      have h1 := refs_body cell (.atom v) (some b)
      rw [hr] at h1
      simp only [Body.refs, List.count_nil] at *; omega
    · trivial
  | setMeta c y =>
    refine Fine.bind (var_tame s c) fun p hp => Fine.bind (var_tame s y) fun q hq => Fine.bind (addr_tame p) fun a ha => ?_
    have hpa := addr_ok ha; subst hpa
    refine Fine.bind (deref_tame (hval (var_mem hq))) fun m _ => Fine.bind (entries_tame _) fun _ _ => ?_
    obtain ⟨h', e, i', b'⟩ := retain_spec i (Or.inl (var_mem hq))
    rw [e, Outcome.ok_bind]
    refine Fine.bind (deref_tame (i'.valid (Or.inl (List.mem_cons_of_mem _ (var_mem hp))))) fun cell hcell => ?_
    obtain ⟨a', ea, hc⟩ := deref_ok hcell
    injection ea with ea; subst ea
    have i2 : Inv (h'.set a (some { cell with mdata := q })) ([cell.mdata] ++ s.vars) := by
      refine i'.update hc (d := { cell with mdata := q }) (show 0 < cell.count from i'.pos _ cell hc) fun b => ?_
      rw [app q, List.count_append]
      simp only [Cell.refs, List.count_append]; omega
    obtain ⟨h2, e2, i3, _⟩ := drop_spec i2
    rw [e2]
    exact i3
  | getMeta x c =>
    refine Fine.bind (var_tame s c) fun p hp => Fine.bind (deref_tame (hval (var_mem hp))) fun cell hcell => ?_
    obtain ⟨a', rfl, hc⟩ := deref_ok hcell
    have hm : cell.mdata ∈ cell.refs := List.mem_append_right _ (by simp)
    obtain ⟨h', e, i', b'⟩ := retain_spec i (Or.inr (Or.inl (mem_refs hc hm)))
    rw [e, Outcome.ok_bind]
    exact assign_fine i'
  | insert m k v =>
    refine Fine.bind (var_tame s m) fun p hp => Fine.bind (var_tame s k) fun kp hk => Fine.bind (var_tame s v) fun vp hv =>
      Fine.bind (addr_tame p) fun a ha => ?_
    have hpa := addr_ok ha; subst hpa
    refine Fine.bind (deref_tame (hval (var_mem hp))) fun cell0 hcell0 => Fine.bind (entries_tame _) fun es hes =>
      Fine.bind (hashH_tame _ i.closed n kp (hval (var_mem hk))) fun x _ => ?_
    obtain ⟨a', ea, hc0⟩ := deref_ok hcell0
    injection ea with ea; subst ea
    have hbody := entries_refs hes
    refine Fine.bind (findLoop_tame x kp es fun d hd => eqH_tame _ i.closed n _ _ (hval (var_mem hk)) ?_) fun r _ => ?_
    · apply i.closed
      refine mem_refs hc0 (List.mem_append_left _ ?_)
      rw [hbody]
      simp only [Body.refs, List.mem_flatMap]
      exact ⟨d, hd, by simp⟩
    · cases r with
      | some e => exact i
      | none =>
        refine Fine.bind (addr_tame kp) fun ka hka => ?_
        have hkk := addr_ok hka; subst hkk
        obtain ⟨h', e, i', b'⟩ := retainAll_spec [some ka, vp] i (fun p hp => Or.inl (by
          simp only [List.mem_cons, List.not_mem_nil, or_false] at hp
          rcases hp with rfl | rfl
          · exact var_mem hk
          · exact var_mem hv))
        rw [e, Outcome.ok_bind]
        refine Fine.bind (deref_tame (i'.valid (Or.inl (List.mem_append_right _ (var_mem hp))))) fun cell hcell => ?_
        obtain ⟨a', ea, hc⟩ := deref_ok hcell
        injection ea with ea; subst ea
        obtain ⟨c1, hc1, e1, e2⟩ := bare_deref b' hc
        rw [hc0] at hc1; injection hc1 with hc1; injection hc1 with hc1; subst hc1
        refine fine_of (i'.update hc (d := { cell with body := _ }) (show 0 < cell.count from i'.pos _ cell hc) fun b => ?_)
        have h1 := refs_body cell (.map (L.hplace es ⟨x, ka, vp⟩)) (some b)
        have h2 : (Body.map (L.hplace es ⟨x, ka, vp⟩)).refs.count (some b) =
            [some ka, vp].count (some b) + cell.body.refs.count (some b) := by
          rw [← e1, hbody]
          simp only [Body.refs]
          rw [((hL es ⟨x, ka, vp⟩).flatMap_right _).count_eq, List.flatMap_cons, List.count_append]
        rw [List.count_append]
        simp only; omega
  | find x m k =>
    refine Fine.bind (var_tame s m) fun p hp => Fine.bind (var_tame s k) fun kp hk =>
      Fine.bind (deref_tame (hval (var_mem hp))) fun cell hcell => Fine.bind (entries_tame _) fun es hes => ?_
    obtain ⟨a', rfl, hc⟩ := deref_ok hcell
    have hbody := entries_refs hes
    have hmem : ∀ d ∈ es, some d.key ∈ s.heap.refs ∧ d.val ∈ s.heap.refs := by
      intro d hd
      refine ⟨mem_refs hc (List.mem_append_left _ ?_), mem_refs hc (List.mem_append_left _ ?_)⟩ <;>
        (rw [hbody]; simp only [Body.refs, List.mem_flatMap]; exact ⟨d, hd, by simp⟩)
    refine Fine.bind ?_ fun r hr => ?_
    · exact (hashH_tame _ i.closed n kp (hval (var_mem hk))).bind fun x _ =>
        findLoop_tame x kp es fun d hd => eqH_tame _ i.closed n _ _ (hval (var_mem hk)) (i.closed _ (hmem d hd).1)
    · cases r with
      | none => trivial
      | some e =>
        obtain ⟨_, _, hr⟩ := Outcome.bind_eq_ok.mp hr
        obtain ⟨h', e', i', b'⟩ := retain_spec i (Or.inr (Or.inl (hmem e (findLoop_mem hr)).2))
        simp only
        rw [e', Outcome.ok_bind]
        exact assign_fine i'

theorem run_fine {L : HLib} (hL : Orderly L) (n : Nat) : ∀ (os : List Op) {s : State}, Inv s.heap s.vars →
    Fine (run L n s os)
  | [], s, i => i
  | o :: os, s, i => by
    have h := step_fine hL n i o
    simp only [run]
    cases hs : step L n s o with
    | ok s' => rw [hs] at h; exact run_fine hL n os h
    | ub m => rw [hs] at h; exact h
    | _ => trivial

theorem start_inv (k : Nat) : Inv (State.start k).heap (State.start k).vars := by
  refine ⟨fun a => ?_, fun a c hc => by simp [State.start] at hc⟩
  simp [State.start, cnt, Heap.refs, List.count_replicate]

/-! ### Reachability -/

theorem holds_iff {h : Heap} {a b : Addr} : Holds h a b ↔ ∃ c : Cell, h[a]? = some (some c) ∧ some b ∈ c.refs := by
  unfold Holds
  refine exists_congr fun c => and_congr_right fun _ => ?_
  simp only [Cell.refs, List.mem_append, List.mem_singleton]
  rw [or_comm]
  refine or_congr ?_ eq_comm
  cases c.body with
  | atom _ => simp [Body.refs]
  | list xs => exact Iff.rfl
  | vec xs => exact Iff.rfl
  | map es =>
    simp only [Body.refs, List.mem_flatMap, List.mem_cons, List.not_mem_nil, or_false]
    refine exists_congr fun e => and_congr_right fun _ => or_congr ?_ eq_comm
    constructor
    · rintro rfl; rfl
    · intro h; injection h with h; exact h.symm

theorem leads_trans {h : Heap} {a b c : Addr} (x : Leads h a b) (y : Leads h b c) : Leads h a c := by
  induction x with
  | refl => exact y
  | step h1 _ ih => exact .step h1 (ih y)

theorem leads_alive {h : Heap} {r : List Ptr} (i : Inv h r) {a b : Addr} (x : Leads h a b) (ha : Alive h a) : Alive h b := by
  induction x with
  | refl => exact ha
  | step h1 _ ih =>
    obtain ⟨c, hc, hm⟩ := holds_iff.mp h1
    exact ih (i.alive (Or.inr (mem_refs hc hm)))

/-- A live node is held by a variable or a node. -/
theorem held {h : Heap} {r : List Ptr} (i : Inv h r) {a : Addr} (ha : Alive h a) :
    some a ∈ r ∨ ∃ b, Holds h b a := by
  obtain ⟨c, hc⟩ := ha
  have h1 := i.exact a
  have h2 := i.pos a c hc
  rw [hc] at h1
  simp only [cnt] at h1
  by_cases hr : 0 < r.count (some a)
  · exact Or.inl (List.count_pos_iff.mp hr)
  · right
    have : 0 < h.refs.count (some a) := by omega
    have := List.count_pos_iff.mp this
    unfold Heap.refs at this
    obtain ⟨o, ho, hm⟩ := List.mem_flatMap.mp this
    cases o with
    | none => cases hm
    | some c' =>
      obtain ⟨b, hb⟩ := List.getElem?_of_mem ho
      exact ⟨b, holds_iff.mpr ⟨c', hb, hm⟩⟩

/-- Numbers below `n` without repetition are at most `n`. -/
theorem nodup_le : ∀ (n : Nat) (l : List Nat), l.Nodup → (∀ x ∈ l, x < n) → l.length ≤ n
  | 0, l, _, h => by
    cases l with
    | nil => simp
    | cons a l => exact absurd (h a (by simp)) (by omega)
  | n + 1, l, hn, h => by
    have h1 : (l.erase n).length ≤ n := nodup_le n (l.erase n) (hn.erase n) (fun x hx => by
      have h2 := h x (List.mem_of_mem_erase hx)
      have h3 : x ≠ n := by
        rintro rfl
        exact (List.Nodup.not_mem_erase hn) hx
      omega)
    have : l.length ≤ (l.erase n).length + 1 := by
      rw [List.length_erase]; split <;> omega
    omega

/-- Going back from a node that no variable leads to, one comes to a cycle. -/
theorem back {s : State} (i : Inv s.heap s.vars) {a : Addr} (ha : Alive s.heap a) (hu : ¬ Reachable s a) :
    ∃ z, OnCycle s.heap z ∧ Leads s.heap z a := by
  apply Classical.byContradiction
  intro hno
  -- chains of distinct nodes leading to `a`, as long as we like
  have chain : ∀ k : Nat, ∃ (x : Addr) (l : List Addr), l.length = k ∧ (x :: l).Nodup ∧ Alive s.heap x ∧
      Leads s.heap x a ∧ (∀ y ∈ x :: l, Leads s.heap x y ∧ Leads s.heap y a ∧ y < s.heap.length) := by
    intro k
    induction k with
    | zero =>
      obtain ⟨c, hc⟩ := ha
      exact ⟨a, [], rfl, by simp, ⟨c, hc⟩, .refl, by
        intro y hy; simp at hy; subst hy
        exact ⟨.refl, .refl, (List.getElem?_eq_some_iff.mp hc).1⟩⟩
    | succ k ih =>
      obtain ⟨x, l, hl, hnd, hx, hxa, hall⟩ := ih
      rcases held i hx with hv | ⟨b, hb⟩
      · exact absurd ⟨x, hv, hxa⟩ hu
      · obtain ⟨c, hc, _⟩ := holds_iff.mp hb
        refine ⟨b, x :: l, by simp [hl], ?_, ⟨c, hc⟩, .step hb hxa, ?_⟩
        · refine List.nodup_cons.mpr ⟨fun hm => ?_, hnd⟩
          -- `b` is already in the chain, so it is on a cycle
          exact hno ⟨b, ⟨x, hb, (hall b hm).1⟩, .step hb hxa⟩
        · intro y hy
          rcases List.mem_cons.mp hy with rfl | hy
          · exact ⟨.refl, .step hb hxa, (List.getElem?_eq_some_iff.mp hc).1⟩
          · exact ⟨.step hb (hall y hy).1, (hall y hy).2⟩
  obtain ⟨x, l, hl, hnd, _, _, hall⟩ := chain s.heap.length
  have := nodup_le s.heap.length (x :: l) hnd (fun y hy => (hall y hy).2.2)
  simp at this; omega

/-! ### Cycles stay -/

/-- Every node of the set is held by one of the set. -/
def Kept (h : Heap) (C : Addr → Prop) : Prop := ∀ x, C x → ∃ y, C y ∧ Holds h y x

theorem release_kept {C : Addr → Prop} : ∀ (n : Nat) (h : Heap) (w r : List Ptr), Inv h (w ++ r) → Kept h C →
    ∀ h', release n h w = .ok h' → Kept h' C
  | n, h, [], r, _, k, h', e => by
    have : release n h [] = .ok h := by cases n <;> rfl
    rw [this] at e; injection e with e; subst e; exact k
  | 0, h, p :: w, r, i, k, h', e => by simp [release] at e
  | n + 1, h, none :: w, r, i, k, h', e =>
    release_kept n h w r (i.perm (fun a => by simp)) k h' e
  | n + 1, h, some a :: w, r, i, k, h', e => by
    obtain ⟨c, hc⟩ := i.alive (a := a) (by simp)
    have hpos := i.pos a c hc
    simp only [release, hc] at e
    split at e
    · rename_i h1
      -- nobody holds `a`
      have hex := i.exact a
      rw [hc, List.cons_append, count_cons_ite, if_pos rfl] at hex
      simp only [cnt] at hex
      have hzero : h.refs.count (some a) = 0 := by omega
      have hna : ∀ y, ¬ Holds h y a := by
        intro y hy
        obtain ⟨d, hd, hm⟩ := holds_iff.mp hy
        have := List.count_pos_iff.mpr (mem_refs hd hm)
        omega
      have i2 : Inv (h.set a none) (c.refs ++ w ++ r) := by
        refine ⟨fun b => ?_, fun b x hx => ?_⟩
        · have h2 := refs_set (some b) h a _ none hc
          have h3 := i.exact b
          rw [List.cons_append, count_cons_ite] at h3
          rw [get_set hc]
          simp only [refsOf, List.count_append, List.count_nil] at *
          split
          · rename_i e; subst e
            rw [hc] at h3
            simp only [cnt, if_true] at *
            omega
          · rename_i e
            simp only [if_neg e] at h3
            omega
        · rw [get_set hc] at hx
          split at hx
          · cases hx
          · exact i.pos b x hx
      refine release_kept n _ _ r i2 (fun x hx => ?_) h' e
      obtain ⟨y, hy, hh⟩ := k x hx
      refine ⟨y, hy, ?_⟩
      obtain ⟨d, hd, hm⟩ := holds_iff.mp hh
      refine holds_iff.mpr ⟨d, ?_, hm⟩
      rw [get_set hc]
      have hya : y ≠ a := by
        rintro rfl
        obtain ⟨z, _, hz⟩ := k y hy
        exact hna z hz
      rw [if_neg hya]; exact hd
    · rename_i h1
      rw [if_neg (by omega)] at e
      have hb : bare (h.set a (some { c with count := c.count - 1 })) = bare h := bare_set hc rfl rfl
      refine release_kept n _ w r
        (i.update hc (show 0 < c.count - 1 by omega) (fun b => by
          rw [List.cons_append, count_cons_ite]
          simp only [Cell.refs]
          split <;> omega)) (fun x hx => ?_) h' e
      obtain ⟨y, hy, hh⟩ := k x hx
      refine ⟨y, hy, ?_⟩
      obtain ⟨d, hd, hm⟩ := holds_iff.mp hh
      obtain ⟨d', hd', e1, e2⟩ := bare_deref hb.symm hd
      exact holds_iff.mpr ⟨d', hd', by unfold Cell.refs at *; rw [e1, e2]; exact hm⟩

theorem leads_last {h : Heap} {a c : Addr} (x : Leads h a c) : a = c ∨ ∃ y, Leads h a y ∧ Holds h y c := by
  induction x with
  | refl => exact Or.inl rfl
  | step h1 _ ih =>
    right
    rcases ih with rfl | ⟨y, h2, h3⟩
    · exact ⟨_, .refl, h1⟩
    · exact ⟨y, .step h1 h2, h3⟩

theorem cycle_kept {h : Heap} {z : Addr} (hz : OnCycle h z) : Kept h (fun x => Leads h z x ∧ Leads h x z) := by
  rintro x ⟨h1, h2⟩
  have : ∃ y, Leads h z y ∧ Holds h y x := by
    rcases leads_last h1 with rfl | h
    · obtain ⟨b, hb, hl⟩ := hz
      rcases leads_last (.step hb hl) with _ | h
      · rcases leads_last hl with rfl | ⟨y, hy, hh⟩
        · exact ⟨_, .refl, hb⟩
        · exact ⟨y, .step hb hy, hh⟩
      · exact h
    · exact h
  obtain ⟨y, hy, hh⟩ := this
  exact ⟨y, ⟨hy, .step hh h2⟩, hh⟩

theorem nulls_kept {L : HLib} (hL : Orderly L) {C : Addr → Prop} (n : Nat) : ∀ (xs : List Nat) {s s' : State},
    Inv s.heap s.vars → Kept s.heap C → run L n s (xs.map .null) = .ok s' → Kept s'.heap C
  | [], s, s', _, k, h => by simp only [List.map_nil, run] at h; injection h with h; subst h; exact k
  | x :: xs, s, s', i, k, h => by
    simp only [List.map_cons, run] at h
    obtain ⟨s1, h1, h⟩ := Outcome.bind_eq_ok.mp h
    have i1 := step_fine hL n i (.null x)
    rw [h1] at i1
    refine nulls_kept hL n xs i1 ?_ h
    simp only [step, State.assign] at h1
    obtain ⟨old, ho, h1⟩ := Outcome.bind_eq_ok.mp h1
    obtain ⟨h2, hd, h1⟩ := Outcome.bind_eq_ok.mp h1
    injection h1 with h1; subst h1
    have hx : s.vars[x]? = some old := by
      unfold State.var at ho
      split at ho
      · rename_i q hq; injection ho with ho; subst ho; exact hq
      · cases ho
    refine release_kept _ s.heap [old] (s.vars.set x none) (i.perm fun a => ?_) k h2 hd
    have := set_count hx none (some a)
    rw [List.count_append]
    simp only [List.count_cons, List.count_nil] at *
    simp at this ⊢
    omega

end Ab.EdnHeap
