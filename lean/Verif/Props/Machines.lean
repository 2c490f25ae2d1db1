import Verif.Spec.Machines
import Verif.Props.IntrusiveList
/-! C115: moving virtual machines. -/
namespace Ab.IL

theorem linked_next {l : L} {p q xs x n} (h : Linked l p xs q) (hx : x ∈ xs) (hn : l.next x = some n) : n ∈ xs ∨ q = some n := by
  induction xs generalizing p with
  | nil => cases hx
  | cons y ys ih =>
    obtain ⟨_, h2, h3⟩ := h
    rcases List.mem_cons.1 hx with rfl | hx
    · rw [hn] at h2
      cases ys with
      | nil => exact Or.inr h2.symm
      | cons z zs => simp at h2; exact Or.inl (by simp [h2])
    · rcases ih h3 hx with h | h
      · exact Or.inl (List.mem_cons_of_mem _ h)
      · exact Or.inr h

theorem linked_prev {l : L} {p q xs x n} (h : Linked l p xs q) (hx : x ∈ xs) (hn : l.prev x = some n) : n ∈ xs ∨ p = some n := by
  induction xs generalizing p with
  | nil => cases hx
  | cons y ys ih =>
    obtain ⟨h1, _, h3⟩ := h
    rcases List.mem_cons.1 hx with rfl | hx
    · exact Or.inr (by rw [← h1, hn])
    · rcases ih h3 hx with h | h
      · exact Or.inl (List.mem_cons_of_mem _ h)
      · injection h with h; exact Or.inl (by simp [h])

/-- Adding touches the links of the new element and of the elements of the list only. -/
theorem add_frame {l : L} {xs e x} (r : Rep l xs) (hx : x ∉ xs) (hxe : x ≠ e) :
    (add l e).prev x = l.prev x ∧ (add l e).next x = l.next x := by
  unfold add
  cases hr : l.root with
  | none => simp [L.setPrev, L.setNext, hr, hxe]
  | some y =>
    have : y ∈ xs := by
      have := r.root
      rw [hr] at this
      exact List.mem_of_head? this.symm
    have hxy : x ≠ y := fun e => hx (e ▸ this)
    simp [L.setPrev, L.setNext, hr, hxe, hxy]

/-- So does removing. -/
theorem remove_frame {l l' : L} {xs e x} (r : Rep l xs) (he : e ∈ xs) (hx : x ∉ xs) (h : remove l e = .ok l') :
    l'.prev x = l.prev x ∧ l'.next x = l.next x := by
  have hxe : x ≠ e := fun h => hx (h ▸ he)
  have hnext : ∀ n, l.next e = some n → x ≠ n := by
    intro n hn hxn
    rcases linked_next r.chain he hn with h | h
    · exact hx (hxn ▸ h)
    · cases h
  have hprev : ∀ n, l.prev e = some n → x ≠ n := by
    intro n hn hxn
    rcases linked_prev r.chain he hn with h | h
    · exact hx (hxn ▸ h)
    · cases h
  unfold remove at h
  by_cases hroot : some e = l.root
  · rw [if_pos hroot] at h
    cases hn : l.next e with
    | none =>
      rw [hn] at h
      simp only [Outcome.pure_eq, Outcome.ok_bind] at h
      injection h with h; subst h
      simp [L.setPrev, L.setNext, hxe]
    | some n =>
      rw [hn] at h
      simp only [Outcome.pure_eq, Outcome.ok_bind] at h
      injection h with h; subst h
      simp [L.setPrev, L.setNext, hxe, hnext n hn]
  · rw [if_neg hroot] at h
    cases hp : l.prev e with
    | none => rw [hp] at h; cases h
    | some p =>
      rw [hp] at h
      simp only at h
      have hxp := hprev p hp
      split at h
      · rename_i n hn
        simp only [Outcome.pure_eq, Outcome.ok_bind] at h
        injection h with h; subst h
        have hxn : x ≠ n := by
          by_cases hep : e = p
          · subst hep; simp [L.setNext] at hn; exact hnext n hn
          · simp [L.setNext, hep] at hn; exact hnext n hn
        simp [L.setPrev, L.setNext, hxe, hxn, hxp]
      · simp only [Outcome.pure_eq, Outcome.ok_bind] at h
        injection h with h; subst h
        simp [L.setPrev, L.setNext, hxe, hxp]

end Ab.IL

namespace Ab.Vms
open Spec.Vms

/-- The state of the code for the machines `ms`. -/
structure Good (s : St) (ms : Ms) : Prop where
  absent : ∀ v, ms v = none → s.root v = none
  rep : ∀ v l, ms v = some l → ∃ r, s.root v = some r ∧ IL.Rep (s.list r) l
  vm : ∀ c v, s.vm c = some v ↔ ∃ l, ms v = some l ∧ c ∈ l

theorem good_init : Good St.init start := ⟨fun _ _ => rfl, fun _ _ h => (nomatch h), fun c v => (by simp [St.init, start])⟩

theorem Good.only {s ms} (g : Good s ms) {c v u l k} (h1 : ms v = some l) (h2 : c ∈ l) (h3 : ms u = some k) (h4 : c ∈ k) : v = u := by
  have e1 := (g.vm c v).2 ⟨l, h1, h2⟩
  have e2 := (g.vm c u).2 ⟨k, h3, h4⟩
  rw [e1] at e2; injection e2

theorem rep_links {s s' : St} {r : Option Nat} {l : List Nat} (h : IL.Rep (s.list r) l)
    (hf : ∀ x ∈ l, s'.prev x = s.prev x ∧ s'.next x = s.next x) : IL.Rep (s'.list r) l :=
  ⟨h.root, h.chain.congr (fun x hx => (hf x hx).1) (fun x hx => (hf x hx).2), h.nodup⟩

theorem good_step {s : St} {ms ms' : Ms} {o : Op} (g : Good s ms) (hs : Step ms o ms') (hi : ∀ v u, o = .moveVm v u → ms v = some []) :
    ∃ s', step s o = .ok s' ∧ Good s' ms' := by
  cases hs with
  | @newVm v h =>
    refine ⟨{ s with root := fun x => if x = v then some none else s.root x }, by simp [step, g.absent v h], ?_⟩
    refine ⟨?_, ?_, ?_⟩
    · intro u hu
      unfold upd at hu
      by_cases e : u = v
      · rw [if_pos e] at hu; cases hu
      · rw [if_neg e] at hu; simp only [if_neg e]; exact g.absent u hu
    · intro u l hu
      unfold upd at hu
      by_cases e : u = v
      · rw [if_pos e] at hu; injection hu with hu; subst hu
        exact ⟨none, by simp [e], ⟨rfl, trivial, List.nodup_nil⟩⟩
      · rw [if_neg e] at hu; simp only [if_neg e]; exact g.rep u l hu
    · intro c u
      show s.vm c = some u ↔ _
      rw [g.vm c u]
      unfold upd
      by_cases e : u = v
      · subst e; simp [h]
      · simp [e]
  | @moveVm v u l h h' =>
    have hl : l = [] := by
      have := hi v u rfl
      rw [h] at this; injection this
    subst hl
    obtain ⟨r, hr, rr⟩ := g.rep v [] h
    have hr0 : r = none := rr.root
    subst hr0
    have hvu : v ≠ u := by intro e; subst e; rw [h] at h'; cases h'
    refine ⟨{ s with root := fun x => if x = u then some none else s.root x }, by simp [step, hr, g.absent u h'], ?_⟩
    refine ⟨?_, ?_, ?_⟩
    · intro x hx
      unfold upd at hx
      by_cases e : x = u
      · rw [if_pos e] at hx; cases hx
      · rw [if_neg e] at hx
        by_cases e2 : x = v
        · rw [if_pos e2] at hx; cases hx
        · rw [if_neg e2] at hx; simp only [if_neg e]; exact g.absent x hx
    · intro x k hx
      unfold upd at hx
      by_cases e : x = u
      · rw [if_pos e] at hx; injection hx with hx; subst hx
        exact ⟨none, by simp [e], ⟨rfl, trivial, List.nodup_nil⟩⟩
      · rw [if_neg e] at hx
        simp only [if_neg e]
        by_cases e2 : x = v
        · rw [if_pos e2] at hx; injection hx with hx; subst hx; subst e2
          exact g.rep x [] h
        · rw [if_neg e2] at hx; exact g.rep x k hx
    · intro c x
      show s.vm c = some x ↔ _
      rw [g.vm c x]
      unfold upd
      by_cases e : x = u
      · subst e; simp [h']
      · by_cases e2 : x = v
        · subst e2; simp [e, h]
        · simp [e, e2]
  | @endVm v h =>
    obtain ⟨r, hr, rr⟩ := g.rep v [] h
    refine ⟨{ s with root := fun x => if x = v then none else s.root x }, by simp [step, hr], ?_⟩
    refine ⟨?_, ?_, ?_⟩
    · intro x hx
      unfold upd at hx
      by_cases e : x = v
      · simp [e]
      · rw [if_neg e] at hx; simp only [if_neg e]; exact g.absent x hx
    · intro x k hx
      unfold upd at hx
      by_cases e : x = v
      · rw [if_pos e] at hx; cases hx
      · rw [if_neg e] at hx; simp only [if_neg e]; exact g.rep x k hx
    · intro c x
      show s.vm c = some x ↔ _
      rw [g.vm c x]
      unfold upd
      by_cases e : x = v
      · subst e; simp [h]
      · simp [e]
  | @create c v l h h' =>
    obtain ⟨r, hr, rr⟩ := g.rep v l h
    have hc : s.vm c = none := by
      cases hc : s.vm c with
      | none => rfl
      | some u =>
        obtain ⟨k, hk, hck⟩ := (g.vm c u).1 hc
        exact absurd hck (h' u k hk)
    refine ⟨{ s.put v (IL.add (s.list r) c) with vm := fun x => if x = c then some v else s.vm x }, by simp [step, hc, hr], ?_⟩
    refine ⟨?_, ?_, ?_⟩
    · intro x hx
      unfold upd at hx
      by_cases e : x = v
      · rw [if_pos e] at hx; cases hx
      · rw [if_neg e] at hx; simp only [St.put, if_neg e]; exact g.absent x hx
    · intro x k hx
      unfold upd at hx
      by_cases e : x = v
      · rw [if_pos e] at hx; injection hx with hx; subst hx
        exact ⟨some c, by simp [St.put, e, IL.add], IL.rep_add rr (h' v l h)⟩
      · rw [if_neg e] at hx
        obtain ⟨r', hr', rr'⟩ := g.rep x k hx
        refine ⟨r', by simp [St.put, e, hr'], rep_links rr' ?_⟩
        intro y hy
        exact IL.add_frame rr (fun hyl => e (g.only hx hy h hyl)) (fun e => h' x k hx (e ▸ hy))
    · intro y x
      show (if y = c then some v else s.vm y) = some x ↔ _
      unfold upd
      by_cases e : y = c
      · subst e
        rw [if_pos rfl]
        constructor
        · intro hx; injection hx with hx; subst hx; exact ⟨y :: l, by simp, by simp⟩
        · rintro ⟨k, hk, hyk⟩
          by_cases e2 : x = v
          · rw [e2]
          · rw [if_neg e2] at hk; exact absurd hyk (h' x k hk)
      · rw [if_neg e, g.vm y x]
        by_cases e2 : x = v
        · subst e2; simp [h, e]
        · simp [e2]
  | @destroy c v l h h' =>
    obtain ⟨r, hr, rr⟩ := g.rep v l h
    have hc : s.vm c = some v := (g.vm c v).2 ⟨l, h, h'⟩
    obtain ⟨l', hl', rl'⟩ := IL.rep_remove rr h'
    refine ⟨{ s.put v l' with vm := fun x => if x = c then none else s.vm x }, by simp [step, hc, hr, hl'], ?_⟩
    refine ⟨?_, ?_, ?_⟩
    · intro x hx
      unfold upd at hx
      by_cases e : x = v
      · rw [if_pos e] at hx; cases hx
      · rw [if_neg e] at hx; simp only [St.put, if_neg e]; exact g.absent x hx
    · intro x k hx
      unfold upd at hx
      by_cases e : x = v
      · rw [if_pos e] at hx; injection hx with hx; subst hx
        exact ⟨l'.root, by simp [St.put, e], rl'⟩
      · rw [if_neg e] at hx
        obtain ⟨r', hr', rr'⟩ := g.rep x k hx
        refine ⟨r', by simp [St.put, e, hr'], rep_links rr' ?_⟩
        intro y hy
        exact IL.remove_frame rr h' (fun hyl => e (g.only hx hy h hyl)) hl'
    · intro y x
      show (if y = c then none else s.vm y) = some x ↔ _
      unfold upd
      by_cases e : y = c
      · subst e
        rw [if_pos rfl]
        constructor
        · intro hx; cases hx
        · rintro ⟨k, hk, hyk⟩
          by_cases e2 : x = v
          · rw [if_pos e2] at hk; injection hk with hk; subst hk
            rw [List.Nodup.mem_erase_iff rr.nodup] at hyk
            exact absurd rfl hyk.1
          · rw [if_neg e2] at hk; exact absurd (g.only hk hyk h h') e2
      · rw [if_neg e, g.vm y x]
        by_cases e2 : x = v
        · subst e2; simp [h, List.Nodup.mem_erase_iff rr.nodup, e]
        · simp [e2]

theorem good_run {ops : List Op} : ∀ {s : St} {ms ms' : Ms}, Good s ms → Run ms ops ms' → IdleMoves ms ops →
    ∃ s', run s ops = .ok s' ∧ Good s' ms' := by
  induction ops with
  | nil => intro s ms ms' g hr _; cases hr; exact ⟨s, rfl, g⟩
  | cons o os ih =>
    intro s ms ms' g hr hi
    cases hr with
    | cons h h' =>
      cases hi with
      | cons hi hi' =>
        obtain ⟨s1, h1, g1⟩ := good_step g h hi
        obtain ⟨s2, h2, g2⟩ := ih g1 h' (hi' _ h)
        exact ⟨s2, by simp [run, h1, h2], g2⟩

theorem walk_ok {s : St} {q p xs} (h : IL.Linked (s.list q) p xs none) (hv : ∀ x ∈ xs, ∃ v, s.vm x = some v) :
    walk s xs.length xs.head? = .ok xs := by
  induction xs generalizing p with
  | nil => rfl
  | cons x xs ih =>
    obtain ⟨-, h2, h3⟩ := h
    obtain ⟨v, hx⟩ := hv x (by simp)
    have h2' : (s.list q).next x = xs.head? := by simpa using h2
    have h2 : s.next x = xs.head? := h2'
    simp only [List.head?_cons, List.length_cons, walk, hx, h2]
    rw [ih h3 (fun y hy => hv y (by simp [hy]))]; rfl

/-- **C115**, full statement: whatever a program does with machines and contexts, as long as it is sensible, nothing undefined happens and
each machine lists its contexts, newest first. -/
def C115_full : Prop :=
  ∀ (ops : List Op) (ms : Ms), Run start ops ms →
    ∃ s, run St.init ops = .ok s ∧ ∀ v l, ms v = some l → contexts s l.length v = .ok l

/-- What holds: machines are moved only while they have no contexts. -/
theorem C115_idle_moves_partial (ops : List Op) (ms : Ms) (h : Run start ops ms) (hi : IdleMoves start ops) :
    ∃ s, run St.init ops = .ok s ∧ ∀ v l, ms v = some l → contexts s l.length v = .ok l := by
  obtain ⟨s, hs, g⟩ := good_run good_init h hi
  refine ⟨s, hs, ?_⟩
  intro v l hv
  obtain ⟨r, hr, rr⟩ := g.rep v l hv
  have hr0 : r = l.head? := rr.root
  unfold contexts
  rw [hr]
  show walk s l.length r = _
  rw [hr0]
  exact walk_ok rr.chain (fun x hx => ⟨v, (g.vm x v).2 ⟨l, hv, hx⟩⟩)

/-- A machine that is moved before it has contexts, then gets three, of which one goes; and another machine. -/
def exOps : List Op := [.newVm 0, .moveVm 0 1, .create 10 1, .newVm 2, .create 11 1, .create 12 2, .create 13 1, .destroy 11]

theorem exOps_run : Run start exOps (upd (upd (upd (upd (upd (upd (upd (upd (upd start 0 (some [])) 0 (some [])) 1 (some []))
    1 (some [10])) 2 (some [])) 1 (some [11, 10])) 2 (some [12])) 1 (some [13, 11, 10])) 1 (some [13, 10])) := by
  unfold exOps
  refine .cons (.newVm rfl) (.cons (.moveVm (l := []) rfl rfl) (.cons (.create (l := []) rfl ?_) (.cons (.newVm rfl)
    (.cons (.create (l := [10]) rfl ?_) (.cons (.create (l := []) rfl ?_) (.cons (.create (l := [11, 10]) rfl ?_)
      (.cons (.destroy (v := 1) (l := [13, 11, 10]) rfl (by decide)) .nil)))))))
  all_goals
    intro u k hk
    unfold upd start at hk
    repeat' split at hk
    all_goals first
      | (injection hk with hk; subst hk; decide)
      | cases hk

theorem idle_of_no_moves : ∀ (ops : List Op) (ms : Ms), (∀ v u, .moveVm v u ∉ ops) → IdleMoves ms ops
  | [], _, _ => .nil
  | o :: os, ms, h => .cons (fun v u e => absurd (e ▸ List.mem_cons_self) (h v u))
      (fun ms' _ => idle_of_no_moves os ms' (fun v u hm => h v u (List.mem_cons_of_mem _ hm)))

example : IdleMoves start exOps := by
  unfold exOps
  refine .cons (by simp) (fun ms1 h1 => ?_)
  cases h1 with
  | newVm h =>
    refine .cons ?_ (fun ms2 _ => idle_of_no_moves _ _ (by simp))
    intro v u e
    injection e with e1 e2
    subst e1; rfl

/-- A machine with a context is moved, the one moved from is destroyed, then the context. -/
def badOps : List Op := [.newVm 0, .create 10 0, .moveVm 0 1, .endVm 0, .destroy 10]

theorem badOps_run : ∃ ms, Run start badOps ms := by
  unfold badOps
  refine ⟨_, .cons (.newVm rfl) (.cons (.create (l := []) rfl ?_) (.cons (.moveVm (l := [10]) rfl rfl) (.cons (.endVm rfl)
    (.cons (.destroy (v := 1) (l := [10]) rfl (by decide)) .nil))))⟩
  intro u k hk
  unfold upd start at hk
  split at hk
  · injection hk with hk; subst hk; decide
  · cases hk

/-- **C115 is false of the code**: the context still refers to the machine that was moved from. -/
theorem C115_negation : ¬ C115_full := by
  intro h
  obtain ⟨ms, hr⟩ := badOps_run
  obtain ⟨s, hs, _⟩ := h badOps ms hr
  have : (run St.init badOps).isOk = true := by rw [hs]; rfl
  revert this
  decide

/-- Also when the machine moved from is kept: the context leaves that one's list, and the new machine lists a context that no longer
exists. -/
theorem C115_stale_negation :
    ∃ s, run St.init [.newVm 0, .create 10 0, .moveVm 0 1, .destroy 10] = .ok s ∧
      contexts s 1 1 = .ub "reading a context that does not exist" ∧ contexts s 0 0 = .ok [] :=
  ⟨_, rfl, rfl, rfl⟩

end Ab.Vms
