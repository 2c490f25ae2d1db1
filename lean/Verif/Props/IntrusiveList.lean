import Verif.Model.IntrusiveList
/-! C33: the VM's context list enumerates exactly the entered contexts. -/
namespace Ab.Spec

open IL (Op)

/-- Contexts currently entered, most recent first; `none` if a context is entered twice or left without
being entered. -/
def entered : List Op → List Nat → Option (List Nat)
  | [], cur => some cur
  | .enter c :: ops, cur => if c ∈ cur then none else entered ops (c :: cur)
  | .leave c :: ops, cur => if c ∈ cur then entered ops (cur.erase c) else none

end Ab.Spec

namespace Ab.IL

open Spec (entered)

/-- The links of the elements of `xs` form a chain from `p` to `q`. -/
def Linked (l : L) (p : Option Nat) : List Nat → Option Nat → Prop
  | [], _ => True
  | x :: xs, q => l.prev x = p ∧ l.next x = (xs.head?).or q ∧ Linked l (some x) xs q

theorem Linked.congr {l l' : L} {p xs q} (h : Linked l p xs q)
    (hp : ∀ x ∈ xs, l'.prev x = l.prev x) (hn : ∀ x ∈ xs, l'.next x = l.next x) : Linked l' p xs q := by
  induction xs generalizing p with
  | nil => trivial
  | cons x xs ih =>
    obtain ⟨h1, h2, h3⟩ := h
    refine ⟨by rw [hp x (by simp)]; exact h1, by rw [hn x (by simp)]; exact h2, ?_⟩
    exact ih h3 (fun y hy => hp y (by simp [hy])) (fun y hy => hn y (by simp [hy]))

theorem linked_append {l : L} {p q} (A B : List Nat) :
    Linked l p (A ++ B) q ↔ Linked l p A ((B.head?).or q) ∧ Linked l ((A.getLast?).or p) B q := by
  induction A generalizing p with
  | nil => simp [Linked]
  | cons a A ih =>
    simp only [List.cons_append, Linked, ih]
    have : (List.getLast? (a :: A)).or p = (A.getLast?).or (some a) := by
      cases A with
      | nil => rfl
      | cons b A => simp [List.getLast?_cons]
    rw [this]
    have h2 : ((A ++ B).head?).or q = (A.head?).or ((B.head?).or q) := by
      cases A <;> simp
    rw [h2]
    constructor
    · rintro ⟨h, h', h'', h'''⟩; exact ⟨⟨h, h', h''⟩, h'''⟩
    · rintro ⟨⟨h, h', h''⟩, h'''⟩; exact ⟨h, h', h'', h'''⟩

/-- The list object represents `xs`. -/
structure Rep (l : L) (xs : List Nat) : Prop where
  root : l.root = xs.head?
  chain : Linked l none xs none
  nodup : xs.Nodup

theorem rep_empty : Rep empty [] := ⟨rfl, trivial, List.nodup_nil⟩

theorem rep_add {l xs e} (r : Rep l xs) (he : e ∉ xs) : Rep (add l e) (e :: xs) := by
  refine ⟨rfl, ?_, List.nodup_cons.mpr ⟨he, r.nodup⟩⟩
  cases xs with
  | nil =>
    have hr : l.root = none := r.root
    refine ⟨?_, ?_, trivial⟩ <;> simp [add, hr, L.setPrev, L.setNext]
  | cons y ys =>
    have hr : l.root = some y := r.root
    have hey : e ≠ y := fun h => he (by simp [h])
    have hye : y ≠ e := fun h => hey h.symm
    obtain ⟨h1, h2, h3⟩ := r.chain
    have hyn : y ∉ ys := (List.nodup_cons.mp r.nodup).1
    refine ⟨?_, ?_, ?_, ?_, ?_⟩
    · simp [add, hr, L.setPrev, L.setNext, hey]
    · simp [add, hr, L.setPrev, L.setNext]
    · simp [add, hr, L.setPrev, L.setNext]
    · simp [add, hr, L.setPrev, L.setNext, hye]; simpa using h2
    · apply h3.congr
      · intro x hx
        have a1 : x ≠ y := fun h => hyn (h ▸ hx)
        have a2 : x ≠ e := fun h => he (by simp [← h, hx])
        simp [add, hr, L.setPrev, L.setNext, a1, a2]
      · intro x hx
        have a2 : x ≠ e := fun h => he (by simp [← h, hx])
        simp [add, hr, L.setPrev, L.setNext, a2]

theorem rep_remove {l xs e} (r : Rep l xs) (he : e ∈ xs) : ∃ l', remove l e = .ok l' ∧ Rep l' (xs.erase e) := by
  obtain ⟨A, B, hx⟩ := List.append_of_mem he
  have hnd := r.nodup
  have hch := r.chain
  rw [hx] at hnd hch
  have heA : e ∉ A := by
    intro h
    have := (List.nodup_append.mp hnd).2.2 e h e (by simp)
    exact this rfl
  have heB : e ∉ B := (List.nodup_cons.mp (List.nodup_append.mp hnd).2.1).1
  have hndA := (List.nodup_append.mp hnd).1
  have hndB := (List.nodup_cons.mp (List.nodup_append.mp hnd).2.1).2
  have hAB : ∀ a ∈ A, ∀ b ∈ B, a ≠ b := fun a ha b hb => (List.nodup_append.mp hnd).2.2 a ha b (by simp [hb])
  have hera : xs.erase e = A ++ B := by
    rw [hx, List.erase_append_right _ heA]; simp
  rw [hera]
  have hnd' : (A ++ B).Nodup := List.nodup_append.mpr ⟨hndA, hndB, hAB⟩
  rw [linked_append] at hch
  obtain ⟨hA, hep, hen, hB⟩ := hch
  simp only [List.head?_cons, Option.some_or] at hA
  simp only [Option.or_none] at hep hen
  rcases List.eq_nil_or_concat A with hA0 | ⟨A', a, hA1⟩
  · -- `e` is the root
    subst hA0
    have hroot : l.root = some e := by rw [r.root, hx]; rfl
    simp only [remove, hroot, if_true]
    cases B with
    | nil =>
      have : l.next e = none := hen
      refine ⟨_, by simp only [this]; rfl, rfl, trivial, hnd'⟩
    | cons b B =>
      have hne : l.next e = some b := by simpa using hen
      obtain ⟨h1, h2, h3⟩ := hB
      have hbe : b ≠ e := fun h => heB (by simp [h])
      have hbB : b ∉ B := (List.nodup_cons.mp hndB).1
      refine ⟨_, by simp only [hne]; rfl, rfl, ⟨?_, ?_, ?_⟩, hnd'⟩
      · simp [L.setPrev, L.setNext, hbe]
      · simp [L.setPrev, L.setNext, hbe]; simpa using h2
      · apply h3.congr
        · intro x hx
          have a1 : x ≠ b := fun h => hbB (h ▸ hx)
          have a2 : x ≠ e := fun h => heB (by simp [← h, hx])
          simp [L.setPrev, L.setNext, a1, a2]
        · intro x hx
          have a2 : x ≠ e := fun h => heB (by simp [← h, hx])
          simp [L.setPrev, L.setNext, a2]
  · -- `e` has a predecessor `a`
    have hA1' : A = A' ++ [a] := by rw [hA1, List.concat_eq_append]
    have hroot : ¬ some e = l.root := by
      rw [r.root, hx, hA1']
      intro h
      cases A' with
      | nil => simp at h; exact heA (by simp [hA1', h])
      | cons c C => simp at h; exact heA (by simp [hA1', h])
    have hpe : l.prev e = some a := by rw [hep, hA1']; simp
    have hae : a ≠ e := fun h => heA (by simp [hA1', h])
    have hea : e ≠ a := fun h => hae h.symm
    rw [hA1', linked_append] at hA
    obtain ⟨hA'', haP, haN, -⟩ := hA
    have haA' : a ∉ A' := by
      intro h
      rw [hA1'] at hndA
      exact (List.nodup_append.mp hndA).2.2 a h a (by simp) rfl
    have hlast : (A.getLast?).or none = some a := by rw [hA1']; simp
    have hAroot : (A ++ B).head? = l.root := by
      rw [r.root, hx, hA1']; cases A' <;> simp
    simp only [remove, hroot, if_false, hpe]
    cases B with
    | nil =>
      have hne : l.next e = none := hen
      have hne' : (l.setNext a (l.next e)).next e = none := by simp [L.setNext, hea, hne]
      refine ⟨_, by simp only [hne']; rfl, by rw [hAroot]; rfl, ?_, hnd'⟩
      rw [List.append_nil, hA1', linked_append]
      refine ⟨?_, ?_, ?_, trivial⟩
      · simp only [List.head?_cons, Option.some_or] at hA'' ⊢
        apply hA''.congr
        · intro x hx
          have a2 : x ≠ e := fun h => heA (by simp [hA1', ← h, hx])
          simp [L.setPrev, L.setNext, a2]
        · intro x hx
          have a2 : x ≠ e := fun h => heA (by simp [hA1', ← h, hx])
          have a3 : x ≠ a := fun h => haA' (h ▸ hx)
          simp [L.setPrev, L.setNext, a2, a3]
      · simp [L.setPrev, L.setNext, hae, haP]
      · simp [L.setPrev, L.setNext, hae, hne]
    | cons b B =>
      have hne : l.next e = some b := by simpa using hen
      have hne' : (l.setNext a (l.next e)).next e = some b := by simp [L.setNext, hea, hne]
      obtain ⟨h1, h2, h3⟩ := hB
      have hbe : b ≠ e := fun h => heB (by simp [h])
      have hbB : b ∉ B := (List.nodup_cons.mp hndB).1
      have hab : a ≠ b := hAB a (by simp [hA1']) b (by simp)
      have hba : b ≠ a := fun h => hab h.symm
      refine ⟨_, by simp only [hne']; rfl, by rw [hAroot]; rfl, ?_, hnd'⟩
      rw [linked_append]
      constructor
      · rw [hA1', linked_append]
        refine ⟨?_, ?_, ?_, trivial⟩
        · simp only [List.head?_cons, Option.some_or] at hA'' ⊢
          apply hA''.congr
          · intro x hx
            have a2 : x ≠ e := fun h => heA (by simp [hA1', ← h, hx])
            have a4 : x ≠ b := hAB x (by simp [hA1', hx]) b (by simp)
            simp [L.setPrev, L.setNext, a2, a4]
          · intro x hx
            have a2 : x ≠ e := fun h => heA (by simp [hA1', ← h, hx])
            have a3 : x ≠ a := fun h => haA' (h ▸ hx)
            simp [L.setPrev, L.setNext, a2, a3]
        · simp [L.setPrev, L.setNext, hae, hab, haP]
        · simp [L.setPrev, L.setNext, hae, hne]
      · rw [hlast]
        refine ⟨?_, ?_, ?_⟩
        · simp [L.setPrev, L.setNext, hbe, hpe]
        · simp [L.setPrev, L.setNext, hbe, hba]; simpa using h2
        · apply h3.congr
          · intro x hx
            have a1 : x ≠ b := fun h => hbB (h ▸ hx)
            have a2 : x ≠ e := fun h => heB (by simp [← h, hx])
            simp [L.setPrev, L.setNext, a1, a2]
          · intro x hx
            have a2 : x ≠ e := fun h => heB (by simp [← h, hx])
            have a3 : x ≠ a := fun h => hAB a (by simp [hA1']) x (by simp [hx]) h.symm
            simp [L.setPrev, L.setNext, a2, a3]

theorem walk_linked {l : L} {p xs} (h : Linked l p xs none) (n : Nat) (hn : xs.length ≤ n) :
    walk l n xs.head? = .ok xs := by
  induction xs generalizing p n with
  | nil => cases n <;> rfl
  | cons x xs ih =>
    obtain ⟨-, h2, h3⟩ := h
    cases n with
    | zero => simp at hn
    | succ n =>
      simp only [List.head?_cons, walk, h2, Option.or_none]
      rw [ih h3 n (by simpa using hn)]; rfl

theorem walkBack_linked {l : L} : ∀ (n : Nat) (xs : List Nat) (q : Option Nat), Linked l none xs q →
    xs.length ≤ n → walkBack l n xs.getLast? = .ok xs.reverse := by
  intro n
  induction n with
  | zero =>
    intro xs q h hn
    have : xs = [] := List.length_eq_zero_iff.mp (by omega)
    subst this; rfl
  | succ n ih =>
    intro xs q h hn
    rcases List.eq_nil_or_concat xs with h0 | ⟨ys, y, h1⟩
    · subst h0; rfl
    · rw [h1, List.concat_eq_append] at h hn ⊢
      have h1' := (linked_append ys [y]).mp h
      obtain ⟨hA, hP, -, -⟩ := h1'
      simp only [List.getLast?_append, List.getLast?_singleton, Option.some_or, walkBack, hP,
        Option.or_none]
      rw [ih ys _ hA (by simp at hn; omega)]
      simp

theorem run_rep {ops : List Op} : ∀ {l cur xs}, Rep l cur → entered ops cur = some xs →
    ∃ l', run l ops = .ok l' ∧ Rep l' xs := by
  induction ops with
  | nil => intro l cur xs r h; cases h; exact ⟨l, rfl, r⟩
  | cons op ops ih =>
    intro l cur xs r h
    cases op with
    | enter c =>
      simp only [entered] at h
      split at h
      · cases h
      · rename_i hc
        obtain ⟨l', h1, h2⟩ := ih (rep_add r hc) h
        exact ⟨l', by simp [run, step, h1], h2⟩
    | leave c =>
      simp only [entered] at h
      split at h
      · rename_i hc
        obtain ⟨l1, h1, r1⟩ := rep_remove r hc
        obtain ⟨l', h2, h3⟩ := ih r1 h
        exact ⟨l', by simp [run, step, h1, h2], h3⟩
      · cases h

/-- C33. For every sequence of entering and leaving contexts in which each context entered is not already
entered and each context left is entered: nothing undefined happens, and afterwards iterating the VM's
context list forwards visits exactly the currently entered contexts, most recent first, in finitely many
steps; iterating backwards from the last one visits them in the opposite order. -/
theorem C33_context_list_enumerates_entered (ops : List Op) (cur : List Nat)
    (h : entered ops [] = some cur) :
    ∃ l, run empty ops = .ok l ∧
      walk l cur.length l.root = .ok cur ∧
      walkBack l cur.length cur.getLast? = .ok cur.reverse ∧
      (l.root = none ↔ cur = []) := by
  obtain ⟨l, hr, r⟩ := run_rep rep_empty h
  refine ⟨l, hr, by rw [r.root]; exact walk_linked r.chain _ (Nat.le_refl _),
    walkBack_linked _ _ none r.chain (Nat.le_refl _), ?_⟩
  rw [r.root]; simp

/-- Contexts left out of order. -/
example : entered [.enter 1, .enter 2, .enter 3, .leave 2, .enter 4, .leave 1] [] = some [4, 3] := rfl

/-- The hypothesis is needed: leaving a context that was never entered follows a null pointer. -/
example : run empty [.enter 1, .leave 2] = .ub "node(*nullptr)" := rfl

/-- So is the other half: entering a context twice makes iteration endless. -/
theorem C33_entering_twice_loops (n : Nat) :
    ∃ l, run empty [.enter 1, .enter 1] = .ok l ∧ walk l n l.root = .fuel := by
  refine ⟨_, rfl, ?_⟩
  induction n with
  | zero => rfl
  | succ n ih =>
    have h : ∀ (l : L), l.next 1 = some 1 → ∀ m, walk l m (some 1) = .fuel := by
      intro l hl m
      induction m with
      | zero => rfl
      | succ m ih => simp only [walk, hl, ih]; rfl
    exact h _ rfl _

end Ab.IL
