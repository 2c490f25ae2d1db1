import Verif.Model.Context
import Verif.Props.IntrusiveList
/-!
Property theorems C71: the life of contexts.
-/
namespace Ab.Spec.Ctx
open Ab.Ctx (Op)

/-- The contexts that exist after the operations, most recent first; `none` if an address in use is used again or a context
that does not exist is destroyed. A moved-from context still exists (its destructor will run). -/
def existing : List Op → List Nat → Option (List Nat)
  | [], cur => some cur
  | .create a :: ops, cur => if a ∈ cur then none else existing ops (a :: cur)
  | .move a b :: ops, cur => if a ∈ cur ∧ b ∉ cur then existing ops (b :: cur) else none
  | .destroy a :: ops, cur => if a ∈ cur then existing ops (cur.erase a) else none

/-- The program moves no context. -/
def NoMove (ops : List Op) : Prop := ∀ a b, Op.move a b ∉ ops

/-- How many contexts the program creates. -/
def created : List Op → Nat
  | [] => 0
  | .create _ :: ops => created ops + 1
  | _ :: ops => created ops

end Ab.Spec.Ctx

namespace Ab.Ctx
open Spec.Ctx

/-- Without moves: the list represents the contexts, each has its own live stack, and every stack ever made is either the
stack of exactly one context or has been deleted exactly once. -/
structure Good (s : St) (cur : List Nat) : Prop where
  rep : IL.Rep s.list cur
  dom : ∀ a, (∃ k, s.ctx a = some k) ↔ a ∈ cur
  own : ∀ a b k, s.ctx a = some k → s.ctx b = some k → a = b
  live : ∀ a k, s.ctx a = some k → s.alive k = true ∧ k < s.next
  only : ∀ k, s.alive k = true → ∃ a, s.ctx a = some k
  del : ∀ k, k < s.next → s.deleted.count k = if s.alive k then 0 else 1
  fresh : ∀ k, s.next ≤ k → s.alive k = false ∧ s.deleted.count k = 0

theorem good_init : Good St.init [] where
  rep := IL.rep_empty
  dom := by simp [St.init]
  own := by simp [St.init]
  live := by simp [St.init]
  only := by simp [St.init]
  del := by simp [St.init]
  fresh := by simp [St.init]

theorem good_create {s : St} {cur : List Nat} (g : Good s cur) (a : Nat) (ha : a ∉ cur) :
    ∃ s', step s (.create a) = .ok s' ∧ Good s' (a :: cur) ∧ s'.next = s.next + 1 := by
  have hn : s.ctx a = none := by
    cases h : s.ctx a with
    | none => rfl
    | some k => exact absurd ((g.dom a).1 ⟨k, h⟩) ha
  simp only [step, hn]
  refine ⟨_, rfl, ?_, rfl⟩
  constructor
  · exact IL.rep_add g.rep ha
  · intro x
    by_cases hx : x = a
    · simp [hx]
    · simp only [if_neg hx, List.mem_cons, hx, false_or]
      exact g.dom x
  · intro x y k hx hy
    simp only at hx hy
    by_cases h1 : x = a <;> by_cases h2 : y = a
    · rw [h1, h2]
    · rw [if_pos h1] at hx
      rw [if_neg h2] at hy
      injection hx with hx
      have := (g.live y k hy).2
      omega
    · rw [if_neg h1] at hx
      rw [if_pos h2] at hy
      injection hy with hy
      have := (g.live x k hx).2
      omega
    · rw [if_neg h1] at hx
      rw [if_neg h2] at hy
      exact g.own x y k hx hy
  · intro x k hx
    simp only at hx ⊢
    by_cases h1 : x = a
    · rw [if_pos h1] at hx
      injection hx with hx
      subst hx
      simp
    · rw [if_neg h1] at hx
      have := g.live x k hx
      refine ⟨?_, by omega⟩
      rw [if_neg (by omega)]
      exact this.1
  · intro k hk
    simp only at hk ⊢
    by_cases h1 : k = s.next
    · exact ⟨a, by simp [h1]⟩
    · rw [if_neg h1] at hk
      obtain ⟨x, hx⟩ := g.only k hk
      refine ⟨x, ?_⟩
      rw [if_neg]
      · exact hx
      · intro e
        subst e
        rw [hn] at hx
        cases hx
  · intro k hk
    simp only at hk ⊢
    by_cases h1 : k = s.next
    · subst h1
      simp only [if_true]
      exact (g.fresh s.next (Nat.le_refl _)).2
    · simp only [if_neg h1]
      exact g.del k (by omega)
  · intro k hk
    simp only at hk ⊢
    rw [if_neg (by omega)]
    exact g.fresh k (by omega)

theorem good_destroy {s : St} {cur : List Nat} (g : Good s cur) (a : Nat) (ha : a ∈ cur) :
    ∃ s', step s (.destroy a) = .ok s' ∧ Good s' (cur.erase a) ∧ s'.next = s.next := by
  obtain ⟨k, hk⟩ := (g.dom a).2 ha
  obtain ⟨l, hl, rl⟩ := IL.rep_remove g.rep ha
  obtain ⟨hal, hlt⟩ := g.live a k hk
  simp only [step, hk, hl, Outcome.ok_bind, deleteStack, hal, if_true]
  refine ⟨_, rfl, ?_, rfl⟩
  have hne : ∀ x j, (if x = a then none else s.ctx x) = some j → x ≠ a ∧ s.ctx x = some j ∧ j ≠ k := by
    intro x j h
    by_cases h1 : x = a
    · rw [if_pos h1] at h; cases h
    · rw [if_neg h1] at h
      refine ⟨h1, h, ?_⟩
      intro e
      subst e
      exact h1 (g.own x a j h hk)
  constructor
  · exact rl
  · intro x
    simp only
    rw [List.Nodup.mem_erase_iff g.rep.nodup, ← g.dom x]
    constructor
    · rintro ⟨j, h⟩
      have := hne x j h
      exact ⟨this.1, j, this.2.1⟩
    · rintro ⟨h, j, hj⟩
      exact ⟨j, by rw [if_neg h]; exact hj⟩
  · intro x y j hx hy
    exact g.own x y j (hne x j hx).2.1 (hne y j hy).2.1
  · intro x j hx
    obtain ⟨h1, h2, h3⟩ := hne x j hx
    have := g.live x j h2
    refine ⟨?_, this.2⟩
    simp only
    rw [if_neg h3]
    exact this.1
  · intro j hj
    simp only at hj ⊢
    by_cases h1 : j = k
    · rw [if_pos h1] at hj; cases hj
    · rw [if_neg h1] at hj
      obtain ⟨x, hx⟩ := g.only j hj
      refine ⟨x, ?_⟩
      rw [if_neg]
      · exact hx
      · intro e
        subst e
        rw [hk] at hx
        injection hx with hx
        exact h1 hx.symm
  · intro j hj
    simp only at hj ⊢
    rw [List.count_cons]
    have hd := g.del j hj
    by_cases h1 : j = k
    · subst h1
      rw [hal] at hd
      simp at hd
      simp [hd]
    · have h2 : (k == j) = false := by simp; exact fun e => h1 e.symm
      simp only [if_neg h1, h2]
      rw [hd]
      rfl
  · intro j hj
    simp only at hj ⊢
    have := g.fresh j hj
    have h1 : j ≠ k := by omega
    have h2 : (k == j) = false := by simp; omega
    rw [if_neg h1, List.count_cons, h2]
    exact ⟨this.1, this.2⟩

theorem run_good : ∀ (ops : List Op) (s : St) (cur fin : List Nat), Good s cur → NoMove ops →
    existing ops cur = some fin →
    ∃ s', run s ops = .ok s' ∧ Good s' fin ∧ s'.next = s.next + created ops
  | [], s, cur, fin, g, _, h => by
    cases h
    exact ⟨s, rfl, g, rfl⟩
  | op :: ops, s, cur, fin, g, hn, h => by
    have hn' : NoMove ops := fun a b hm => hn a b (List.mem_cons_of_mem _ hm)
    cases op with
    | create a =>
      simp only [existing] at h
      split at h
      · cases h
      · rename_i ha
        obtain ⟨s1, e1, g1, n1⟩ := good_create g a ha
        obtain ⟨s2, e2, g2, n2⟩ := run_good ops s1 _ fin g1 hn' h
        refine ⟨s2, ?_, g2, ?_⟩
        · rw [run, e1]; exact e2
        · rw [n2, n1, created]; omega
    | move a b => exact absurd (List.mem_cons_self) (hn a b)
    | destroy a =>
      simp only [existing] at h
      split at h
      · rename_i ha
        obtain ⟨s1, e1, g1, n1⟩ := good_destroy g a ha
        obtain ⟨s2, e2, g2, n2⟩ := run_good ops s1 _ fin g1 hn' h
        refine ⟨s2, ?_, g2, ?_⟩
        · rw [run, e1]; exact e2
        · rw [n2, n1]; rfl
      · cases h

/-! ## C71 -/

/-- **C71**, full statement: any program that creates, moves and destroys contexts – only existing ones, only at free
addresses – is defined, and when no context is left every stack has been deleted exactly once. -/
def C71_full : Prop :=
  ∀ (ops : List Op) (fin : List Nat), existing ops [] = some fin →
    ∃ s, run St.init ops = .ok s ∧ (fin = [] → s.list.root = none ∧ ∀ k, s.alive k = false)

/-- **C71 is false of the code**: create a context, move it, destroy the new one: a null pointer is followed. -/
theorem C71_negation : ¬ C71_full := by
  intro h
  obtain ⟨s, hs, _⟩ := h [.create 1, .move 1 2, .destroy 2] [1] rfl
  have : (run St.init [.create 1, .move 1 2, .destroy 2]).isOk = true := by rw [hs]; rfl
  revert this
  decide

/-- A context shares its stack with another, or has a deleted stack. -/
def Bad (s : St) : Prop :=
  (∃ a b k, a ≠ b ∧ s.ctx a = some k ∧ s.ctx b = some k) ∨ (∃ a k, s.ctx a = some k ∧ s.alive k = false ∧ k < s.next)

theorem bad_step {s s' : St} {op : Op} (hlt : ∀ a k, s.ctx a = some k → k < s.next) (hb : Bad s)
    (h : step s op = .ok s') : Bad s' ∧ (∀ a k, s'.ctx a = some k → k < s'.next) := by
  cases op with
  | create c =>
    simp only [step] at h
    cases hc : s.ctx c with
    | some k => rw [hc] at h; cases h
    | none =>
      rw [hc] at h
      simp only at h
      injection h with h
      subst h
      refine ⟨?_, ?_⟩
      · rcases hb with ⟨a, b, k, hab, ha, hb⟩ | ⟨a, k, ha, hk, hkn⟩
        · refine Or.inl ⟨a, b, k, hab, ?_, ?_⟩
          · show (if a = c then some s.next else s.ctx a) = some k
            rw [if_neg (by intro e; rw [e, hc] at ha; cases ha)]; exact ha
          · show (if b = c then some s.next else s.ctx b) = some k
            rw [if_neg (by intro e; rw [e, hc] at hb; cases hb)]; exact hb
        · refine Or.inr ⟨a, k, ?_, ?_, ?_⟩
          · show (if a = c then some s.next else s.ctx a) = some k
            rw [if_neg (by intro e; rw [e, hc] at ha; cases ha)]; exact ha
          · show (if k = s.next then true else s.alive k) = false
            rw [if_neg (by omega)]; exact hk
          · show k < s.next + 1
            omega
      · intro a k ha
        show k < s.next + 1
        simp only at ha
        by_cases hac : a = c
        · rw [if_pos hac] at ha; injection ha with ha; omega
        · rw [if_neg hac] at ha; have := hlt a k ha; omega
  | move c d =>
    simp only [step] at h
    cases hc : s.ctx c with
    | none => rw [hc] at h; cases h
    | some k0 =>
      cases hd : s.ctx d with
      | some _ => rw [hc, hd] at h; cases h
      | none =>
        rw [hc, hd] at h
        simp only at h
        injection h with h
        subst h
        refine ⟨Or.inl ⟨c, d, k0, ?_, ?_, ?_⟩, ?_⟩
        · intro e; rw [e, hd] at hc; cases hc
        · show (if c = d then some k0 else s.ctx c) = some k0
          split
          · rfl
          · exact hc
        · show (if d = d then some k0 else s.ctx d) = some k0
          simp
        · intro a k ha
          simp only at ha
          by_cases had : a = d
          · rw [if_pos had] at ha; injection ha with ha; subst ha; exact hlt c _ hc
          · rw [if_neg had] at ha; exact hlt a k ha
  | destroy c =>
    simp only [step] at h
    cases hc : s.ctx c with
    | none => rw [hc] at h; cases h
    | some k0 =>
      rw [hc] at h
      simp only at h
      obtain ⟨l, _, h⟩ := Outcome.bind_eq_ok.1 h
      unfold deleteStack at h
      split at h
      · rename_i hal
        injection h with h
        subst h
        have hal : s.alive k0 = true := hal
        have hk0 : k0 < s.next := hlt c k0 hc
        refine ⟨?_, ?_⟩
        · rcases hb with ⟨a, b, k, hab, ha, hb⟩ | ⟨a, k, ha, hk, hkn⟩
          · by_cases hac : a = c
            · subst hac
              rw [hc] at ha
              injection ha with ha
              subst ha
              refine Or.inr ⟨b, k0, ?_, ?_, hk0⟩
              · show (if b = a then none else s.ctx b) = some k0
                rw [if_neg (Ne.symm hab)]; exact hb
              · show (if k0 = k0 then false else s.alive k0) = false
                simp
            · by_cases hbc : b = c
              · subst hbc
                rw [hc] at hb
                injection hb with hb
                subst hb
                refine Or.inr ⟨a, k0, ?_, ?_, hk0⟩
                · show (if a = b then none else s.ctx a) = some k0
                  rw [if_neg hab]; exact ha
                · show (if k0 = k0 then false else s.alive k0) = false
                  simp
              · refine Or.inl ⟨a, b, k, hab, ?_, ?_⟩
                · show (if a = c then none else s.ctx a) = some k
                  rw [if_neg hac]; exact ha
                · show (if b = c then none else s.ctx b) = some k
                  rw [if_neg hbc]; exact hb
          · have hac : a ≠ c := by
              intro e
              subst e
              rw [hc] at ha
              injection ha with ha
              rw [ha, hk] at hal
              cases hal
            refine Or.inr ⟨a, k, ?_, ?_, hkn⟩
            · show (if a = c then none else s.ctx a) = some k
              rw [if_neg hac]; exact ha
            · show (if k = k0 then false else s.alive k) = false
              split
              · rfl
              · exact hk
        · intro a k ha
          simp only at ha
          by_cases hac : a = c
          · rw [if_pos hac] at ha; cases ha
          · rw [if_neg hac] at ha; exact hlt a k ha
      · cases h

theorem bad_run : ∀ (ops : List Op) (s s' : St), (∀ a k, s.ctx a = some k → k < s.next) → Bad s →
    run s ops = .ok s' → Bad s'
  | [], s, s', _, hb, h => by cases h; exact hb
  | op :: ops, s, s', hlt, hb, h => by
    rw [run] at h
    obtain ⟨s1, h1, h2⟩ := Outcome.bind_eq_ok.1 h
    obtain ⟨b1, l1⟩ := bad_step hlt hb h1
    exact bad_run ops s1 s' l1 b1 h2

theorem lt_step {s s' : St} {op : Op} (hlt : ∀ a k, s.ctx a = some k → k < s.next)
    (h : step s op = .ok s') : ∀ a k, s'.ctx a = some k → k < s'.next := by
  intro a k ha
  cases op with
  | create c =>
    simp only [step] at h
    cases hc : s.ctx c with
    | some k => rw [hc] at h; cases h
    | none =>
      rw [hc] at h
      injection h with h
      subst h
      show k < s.next + 1
      simp only at ha
      by_cases hac : a = c
      · rw [if_pos hac] at ha; injection ha with ha; omega
      · rw [if_neg hac] at ha; have := hlt a k ha; omega
  | move c d =>
    simp only [step] at h
    cases hc : s.ctx c with
    | none => rw [hc] at h; cases h
    | some k0 =>
      cases hd : s.ctx d with
      | some _ => rw [hc, hd] at h; cases h
      | none =>
        rw [hc, hd] at h
        injection h with h
        subst h
        simp only at ha ⊢
        by_cases had : a = d
        · rw [if_pos had] at ha; injection ha with ha; subst ha; exact hlt c _ hc
        · rw [if_neg had] at ha; exact hlt a k ha
  | destroy c =>
    simp only [step] at h
    cases hc : s.ctx c with
    | none => rw [hc] at h; cases h
    | some k0 =>
      rw [hc] at h
      simp only at h
      obtain ⟨l, _, h⟩ := Outcome.bind_eq_ok.1 h
      unfold deleteStack at h
      split at h
      · injection h with h
        subst h
        simp only at ha ⊢
        by_cases hac : a = c
        · rw [if_pos hac] at ha; cases ha
        · rw [if_neg hac] at ha; exact hlt a k ha
      · cases h

/-- How it fails: no program that moves a context ends well – whatever it does before and after, if it gets as far as having
no context left, it has had undefined behaviour on the way. -/
theorem C71_no_program_with_a_move_ends_well (pre post : List Op) (a b : Nat) (s : St)
    (h : run St.init (pre ++ .move a b :: post) = .ok s) : ∃ c k, s.ctx c = some k := by
  have split : ∀ (p q : List Op) (s0 s1 : St), run s0 (p ++ q) = .ok s1 →
      (∀ a k, s0.ctx a = some k → k < s0.next) →
      ∃ t, run s0 p = .ok t ∧ run t q = .ok s1 ∧ (∀ a k, t.ctx a = some k → k < t.next) := by
    intro p
    induction p with
    | nil => intro q s0 s1 h hl; exact ⟨s0, rfl, h, hl⟩
    | cons op p ih =>
      intro q s0 s1 h hl
      rw [List.cons_append, run] at h
      obtain ⟨t0, h1, h2⟩ := Outcome.bind_eq_ok.1 h
      obtain ⟨t, e1, e2, e3⟩ := ih q t0 s1 h2 (lt_step hl h1)
      exact ⟨t, by rw [run, h1]; exact e1, e2, e3⟩
  obtain ⟨t, _, h2, hl⟩ := split pre (.move a b :: post) St.init s h (by simp [St.init])
  rw [run] at h2
  obtain ⟨t1, h3, h4⟩ := Outcome.bind_eq_ok.1 h2
  have hl1 := lt_step hl h3
  have hbad : Bad t1 := by
    simp only [step] at h3
    cases hc : t.ctx a with
    | none => rw [hc] at h3; cases h3
    | some k0 =>
      cases hd : t.ctx b with
      | some _ => rw [hc, hd] at h3; cases h3
      | none =>
        rw [hc, hd] at h3
        injection h3 with h3
        subst h3
        refine Or.inl ⟨a, b, k0, ?_, ?_, ?_⟩
        · intro e; rw [e, hd] at hc; cases hc
        · show (if a = b then some k0 else t.ctx a) = some k0
          split
          · rfl
          · exact hc
        · show (if b = b then some k0 else t.ctx b) = some k0
          simp
  rcases bad_run post t1 s hl1 hbad h4 with ⟨c, _, k, _, hc, _⟩ | ⟨c, k, hc, _⟩
  · exact ⟨c, k, hc⟩
  · exact ⟨c, k, hc⟩

/-- Moving goes unnoticed until both objects are destroyed. -/
example : (run St.init [.create 1, .create 2, .move 1 3, .destroy 3]).isOk = true := by decide

/-- … then the stack is deleted twice. -/
example : run St.init [.create 1, .create 2, .move 1 3, .destroy 3, .destroy 1] = .ub "delete[] of a deleted stack" := by
  rfl

/-- **C71**, what holds: every program that creates and destroys contexts without moving them, in any order and reusing
addresses, is defined; at each point the VM's list enumerates the existing contexts, no two contexts share a stack, no context's stack has been
deleted, and of the stacks made so far exactly those of the destroyed contexts have been deleted, once each.
Missing: moving a context. -/
theorem C71_without_moves_partial (ops : List Op) (fin : List Nat) (hn : NoMove ops)
    (h : existing ops [] = some fin) :
    ∃ s, run St.init ops = .ok s ∧
      IL.walk s.list fin.length s.list.root = .ok fin ∧
      (∀ a, (∃ k, s.ctx a = some k) ↔ a ∈ fin) ∧
      (∀ a k, s.ctx a = some k → k < created ops ∧ s.deleted.count k = 0 ∧ ∀ b, s.ctx b = some k → b = a) ∧
      (∀ k, k < created ops → (∀ a, s.ctx a ≠ some k) → s.deleted.count k = 1) := by
  obtain ⟨s, e, g, n⟩ := run_good ops St.init [] fin good_init hn h
  have hc : s.next = created ops := by rw [n]; simp [St.init]
  refine ⟨s, e, ?_, g.dom, ?_, ?_⟩
  · rw [g.rep.root]
    exact IL.walk_linked g.rep.chain _ (Nat.le_refl _)
  · intro a k ha
    obtain ⟨h1, h2⟩ := g.live a k ha
    refine ⟨by omega, ?_, fun b hb => g.own b a k hb ha⟩
    rw [g.del k h2, h1]
    rfl
  · intro k hk hno
    have : s.alive k = false := by
      cases hal : s.alive k with
      | false => rfl
      | true =>
        obtain ⟨a, ha⟩ := g.only k hal
        exact absurd ha (hno a)
    rw [g.del k (by omega), this]
    rfl

example : existing [.create 1, .create 2, .destroy 1, .create 1, .destroy 2] [] = some [1] ∧
    NoMove [.create 1, .create 2, .destroy 1, .create 1, .destroy 2] :=
  ⟨rfl, by intro a b; simp⟩

end Ab.Ctx
