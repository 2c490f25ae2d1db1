import Verif.Model.EdnHeapStack
import Verif.Spec.EdnHeapStack
import Verif.Proof.EdnHeap2
/-! Destruction on a finite stack does what destruction does, unless there is too long a chain. -/
namespace Ab.EdnHeap.Stack

open Ab.EdnHeap Spec

theorem release_mono : ∀ (n : Nat) (h : Heap) (w : List Ptr) (h' : Heap) (m : Nat), release n h w = .ok h' → n ≤ m →
    release m h w = .ok h'
  | n, h, [], h', m, e, _ => by
    have : release n h [] = release m h [] := by cases n <;> cases m <;> rfl
    rw [← this]; exact e
  | 0, h, p :: w, h', m, e, _ => by cases e
  | n + 1, h, none :: w, h', 0, e, hm => by omega
  | n + 1, h, some a :: w, h', 0, e, hm => by omega
  | n + 1, h, none :: w, h', m + 1, e, hm => release_mono n h w h' m e (by omega)
  | n + 1, h, some a :: w, h', m + 1, e, hm => by
    simp only [release] at e ⊢
    split at e
    · rename_i c hc
      split at e
      · rename_i h1
        rw [if_pos h1]
        exact release_mono n _ _ h' m e (by omega)
      · rename_i h1
        rw [if_neg h1]
        split at e
        · cases e
        · rename_i h2
          rw [if_neg h2]
          exact release_mono n _ _ h' m e (by omega)
    · cases e

theorem release_append : ∀ (n : Nat) (h : Heap) (w : List Ptr) (h1 : Heap) (m : Nat) (w' : List Ptr) (h2 : Heap),
    release n h w = .ok h1 → release m h1 w' = .ok h2 → release (n + m) h (w ++ w') = .ok h2
  | n, h, [], h1, m, w', h2, e1, e2 => by
    have : release n h [] = .ok h := by cases n <;> rfl
    rw [this] at e1
    cases e1
    exact release_mono m _ _ _ _ e2 (by omega)
  | 0, h, p :: w, h1, m, w', h2, e1, e2 => by cases e1
  | n + 1, h, none :: w, h1, m, w', h2, e1, e2 => by
    rw [show n + 1 + m = n + m + 1 by omega]
    exact release_append n h w h1 m w' h2 e1 e2
  | n + 1, h, some a :: w, h1, m, w', h2, e1, e2 => by
    rw [show n + 1 + m = n + m + 1 by omega, List.cons_append]
    simp only [release] at e1 ⊢
    split at e1
    · rename_i c hc
      split at e1
      · rename_i hcnt
        rw [if_pos hcnt, ← List.append_assoc]
        exact release_append n _ _ h1 m w' h2 e1 e2
      · rename_i hcnt
        rw [if_neg hcnt]
        split at e1
        · cases e1
        · rename_i hz
          rw [if_neg hz]
          exact release_append n _ _ h1 m w' h2 e1 e2
    · cases e1

/-- When the limited destruction ends, it has done what the other does. -/
theorem releaseD_ok : ∀ (n room : Nat) (h : Heap) (w : List Ptr) (h' : Heap), releaseD room n h w = .ok h' →
    ∃ N, release N h w = .ok h'
  | n, room, h, [], h', e => ⟨0, by
    have : releaseD room n h [] = .ok h := by cases n <;> rfl
    rw [this] at e; exact e⟩
  | 0, room, h, p :: w, h', e => by cases e
  | n + 1, room, h, none :: w, h', e => by
    obtain ⟨N, hN⟩ := releaseD_ok n room h w h' e
    exact ⟨N + 1, hN⟩
  | n + 1, room, h, some a :: w, h', e => by
    simp only [releaseD] at e
    split at e
    · rename_i c hc
      split at e
      · rename_i h1
        cases room with
        | zero => cases e
        | succ room =>
          simp only at e
          obtain ⟨g, e1, e2⟩ := Outcome.bind_eq_ok.mp e
          obtain ⟨N1, h1'⟩ := releaseD_ok n room _ _ g e1
          obtain ⟨N2, h2'⟩ := releaseD_ok n (room + 1) g w h' e2
          refine ⟨N1 + N2 + 1, ?_⟩
          simp only [release, hc]
          rw [if_pos h1]
          exact release_append N1 _ _ g N2 w h' h1' h2'
      · rename_i h1
        split at e
        · cases e
        · rename_i h2
          obtain ⟨N, hN⟩ := releaseD_ok n room _ w h' e
          refine ⟨N + 1, ?_⟩
          simp only [release, hc]
          rw [if_neg h1, if_neg h2]
          exact hN
    · cases e

/-- Every chain that begins with `a` has at most `k` live nodes. -/
def Low (h : Heap) : Nat → Addr → Prop
  | 0, a => ¬ Alive h a
  | k + 1, a => ∀ b, Holds h a b → Low h k b

theorem Low.sub {h h' : Heap} (s : Sub h' h) : ∀ {k : Nat} {a : Addr}, Low h k a → Low h' k a
  | 0, a, l => fun ⟨c, hc⟩ => by
    obtain ⟨d, hd, _⟩ := s.2 a c hc
    exact l ⟨d, hd⟩
  | k + 1, a, l => fun b hb => by
    obtain ⟨c, hc, hm⟩ := holds_iff.mp hb
    obtain ⟨d, hd, e1, e2⟩ := s.2 a c hc
    refine (l b (holds_iff.mpr ⟨d, hd, ?_⟩)).sub s
    rw [Cell.refs, e1, e2]
    exact hm

/-- Destroying a node keeps the counts right. -/
theorem inv_destroy {h : Heap} {w r : List Ptr} {a : Nat} {c : Cell} (i : Inv h (some a :: w ++ r)) (hc : h[a]? = some (some c))
    (h1 : c.count = 1) : Inv (h.set a none) (c.refs ++ (w ++ r)) := by
  refine ⟨fun b => ?_, fun b x hx => ?_⟩
  · have h2 := refs_set (some b) h a _ none hc
    have h3 := i.exact b
    rw [List.cons_append, count_cons_ite] at h3
    rw [get_set hc]
    simp only [refsOf, List.count_append, List.count_nil] at *
    split
    · rename_i e; subst e
      rw [hc] at h3
      simp only [cnt, if_true] at *
      omega
    · rename_i e
      simp only [if_neg e] at h3
      omega
  · rw [get_set hc] at hx
    split at hx
    · cases hx
    · exact i.pos b x hx

theorem sub_destroy {h : Heap} {a : Nat} {c : Cell} (hc : h[a]? = some (some c)) : Sub (h.set a none) h := by
  refine ⟨by simp, fun b d hd => ?_⟩
  rw [get_set hc] at hd
  split at hd
  · cases hd
  · exact ⟨d, hd, rfl, rfl⟩

theorem refs_le_of_sub : ∀ {h h' : Heap}, Sub h' h → (Heap.refs h').length ≤ (Heap.refs h).length
  | [], [], _ => Nat.le_refl _
  | [], _ :: _, s => by have := s.1; simp at this
  | _ :: _, [], s => by have := s.1; simp at this
  | d :: h, c :: h', s => by
    rw [Heap.refs_cons, Heap.refs_cons, List.length_append, List.length_append]
    have h1 : (Heap.refs h').length ≤ (Heap.refs h).length := refs_le_of_sub ⟨by have := s.1; simpa using this, fun a x hx => s.2 (a + 1) x hx⟩
    have h2 : (refsOf c).length ≤ (refsOf d).length := by
      cases c with
      | none => exact Nat.zero_le _
      | some c =>
        obtain ⟨d', hd, e1, e2⟩ := s.2 0 c rfl
        simp only [List.getElem?_cons_zero, Option.some.injEq] at hd
        subst hd
        simp only [refsOf, Cell.refs, e1, e2]
        exact Nat.le_refl _
    omega

/-- The limited destruction ends, or the stack is overrun, which only happens where there is a long chain. -/
theorem releaseD_cases : ∀ (n room : Nat) (h : Heap) (w r : List Ptr), Inv h (w ++ r) → h.refs.length + w.length ≤ n →
    (∃ h', releaseD room n h w = .ok h' ∧ Inv h' r ∧ Sub h' h) ∨
    (releaseD room n h w = .ub "stack overflow" ∧ ∃ a, some a ∈ w ∧ ¬ Low h room a)
  | n, room, h, [], r, i, _ => Or.inl ⟨h, by cases n <;> rfl, i, Sub.refl h⟩
  | 0, room, h, p :: w, r, i, hn => by simp at hn
  | n + 1, room, h, none :: w, r, i, hn => by
    rcases releaseD_cases n room h w r (i.perm (fun a => by simp)) (by simp at hn; omega) with h1 | ⟨h1, a, ha, hl⟩
    · exact Or.inl h1
    · exact Or.inr ⟨h1, a, List.mem_cons_of_mem _ ha, hl⟩
  | n + 1, room, h, some a :: w, r, i, hn => by
    obtain ⟨c, hc⟩ := i.alive (a := a) (by simp)
    have hpos := i.pos a c hc
    simp only [List.length_cons] at hn
    simp only [releaseD, hc]
    split
    · rename_i h1
      have hlen := refs_set_length h a _ none hc
      simp only [refsOf, List.length_nil] at hlen
      cases room with
      | zero => exact Or.inr ⟨rfl, a, List.mem_cons_self .., fun hl => hl ⟨c, hc⟩⟩
      | succ room =>
        simp only
        have s1 := sub_destroy hc
        rcases releaseD_cases n room (h.set a none) c.refs (w ++ r) (inv_destroy i hc h1) (by omega) with
          ⟨g, e1, i1, s2⟩ | ⟨e1, b, hb, hl⟩
        · have s3 := s2.trans s1
          have hle := refs_le_of_sub s2
          rcases releaseD_cases n (room + 1) g w r i1 (by omega) with ⟨h', e2, i2, s4⟩ | ⟨e2, b, hb, hl⟩
          · exact Or.inl ⟨h', by rw [e1]; exact e2, i2, s4.trans s3⟩
          · exact Or.inr ⟨by rw [e1]; exact e2, b, List.mem_cons_of_mem _ hb, fun l => hl (l.sub s3)⟩
        · exact Or.inr ⟨by rw [e1]; rfl, a, List.mem_cons_self ..,
            fun l => hl ((l b (holds_iff.mpr ⟨c, hc, hb⟩)).sub s1)⟩
    · rename_i h1
      rw [if_neg (by omega)]
      have hb : bare (h.set a (some { c with count := c.count - 1 })) = bare h := bare_set hc rfl rfl
      have s1 : Sub (h.set a (some { c with count := c.count - 1 })) h :=
        ⟨by simp, fun b d hd => bare_deref hb hd |>.imp fun _ x => x⟩
      rcases releaseD_cases n room (h.set a (some { c with count := c.count - 1 })) w r
        (i.update hc (show 0 < c.count - 1 by omega) (fun b => by
          rw [List.cons_append, count_cons_ite]
          simp only [Cell.refs]
          split <;> omega))
        (by rw [refs_of_bare hb]; omega) with ⟨h', e, i', s⟩ | ⟨e, b, hb, hl⟩
      · exact Or.inl ⟨h', e, i', s.trans s1⟩
      · exact Or.inr ⟨e, b, List.mem_cons_of_mem _ hb, fun l => hl (l.sub s1)⟩

theorem releaseD_spec (n room : Nat) (h : Heap) (w r : List Ptr) (i : Inv h (w ++ r)) (hn : h.refs.length + w.length ≤ n)
    (hl : ∀ a, some a ∈ w → Low h room a) : ∃ h', releaseD room n h w = .ok h' ∧ Inv h' r ∧ Sub h' h := by
  rcases releaseD_cases n room h w r i hn with h1 | ⟨_, a, ha, h1⟩
  · exact h1
  · exact absurd (hl a ha) h1

/-! ### Chains of nodes that nothing else uses -/

theorem refs_count_of_sub (p : Ptr) : ∀ {h h' : Heap}, Sub h' h → (Heap.refs h').count p ≤ (Heap.refs h).count p
  | [], [], _ => Nat.le_refl _
  | [], _ :: _, s => by have := s.1; simp at this
  | _ :: _, [], s => by have := s.1; simp at this
  | d :: h, c :: h', s => by
    rw [Heap.refs_cons, Heap.refs_cons, List.count_append, List.count_append]
    have h1 : (Heap.refs h').count p ≤ (Heap.refs h).count p :=
      refs_count_of_sub p ⟨by have := s.1; simpa using this, fun a x hx => s.2 (a + 1) x hx⟩
    have h2 : (refsOf c).count p ≤ (refsOf d).count p := by
      cases c with
      | none => exact Nat.zero_le _
      | some c =>
        obtain ⟨d', hd, e1, e2⟩ := s.2 0 c rfl
        simp only [List.getElem?_cons_zero, Option.some.injEq] at hd
        subst hd
        simp only [refsOf, Cell.refs, e1, e2]
        exact Nat.le_refl _
    omega

/-- A chain of nodes each of which has one use. -/
def Sole (h : Heap) (l : List Addr) : Prop := Chain h l ∧ ∀ x ∈ l, ∃ c, h[x]? = some (some c) ∧ c.count = 1

theorem Sole.tail {h : Heap} {a b : Addr} {l : List Addr} (s : Sole h (a :: b :: l)) : Sole h (b :: l) :=
  ⟨s.1.2, fun x hx => s.2 x (List.mem_cons_of_mem _ hx)⟩

/-- While its first node is in use, such a chain survives. -/
theorem Sole.keep {g h : Heap} {r : List Ptr} (ig : Inv g r) (s : Sub g h)
    (hr : ∀ x : Addr, cnt g[x]? ≤ cnt h[x]?) : ∀ (l : List Addr) (a : Addr), (∃ c, g[a]? = some (some c)) →
      Sole h (a :: l) → Sole g (a :: l) := by
  have one : ∀ (a : Addr) (c : Cell), g[a]? = some (some c) → (∃ d, h[a]? = some (some d) ∧ d.count = 1) → c.count = 1 := by
    intro a c hc ⟨d, hd, h1⟩
    have e4 := hr a
    have e5 := ig.pos a c hc
    rw [hc, hd] at e4
    simp only [cnt] at e4
    omega
  intro l
  induction l with
  | nil =>
    rintro a ⟨c, hc⟩ so
    refine ⟨trivial, fun x hx => ?_⟩
    rw [List.mem_singleton.mp hx]
    exact ⟨c, hc, one a c hc (so.2 a (List.mem_cons_self ..))⟩
  | cons b l ihl =>
    rintro a ⟨c, hc⟩ so
    obtain ⟨d, hd, e1, e2⟩ := s.2 a c hc
    obtain ⟨d', hd', hm⟩ := holds_iff.mp so.1.1
    rw [hd] at hd'
    cases hd'
    have hm' : some b ∈ c.refs := by rw [Cell.refs, ← e1, ← e2]; exact hm
    have hb := ig.alive (Or.inr (mem_refs hc hm'))
    have st := ihl b hb so.tail
    refine ⟨⟨holds_iff.mpr ⟨c, hc, hm'⟩, st.1⟩, fun x hx => ?_⟩
    rcases List.mem_cons.mp hx with rfl | hx
    · exact ⟨c, hc, one x c hc (so.2 x (List.mem_cons_self ..))⟩
    · exact st.2 x hx

/-- Such a chain, longer than the stack, overruns it. -/
theorem releaseD_sole : ∀ (n room : Nat) (h : Heap) (w r : List Ptr) (a : Addr) (l : List Addr), Inv h (w ++ r) →
    h.refs.length + w.length ≤ n → some a ∈ w → Sole h (a :: l) → room < (a :: l).length →
    releaseD room n h w = .ub "stack overflow"
  | n, room, h, [], r, a, l, i, hn, ha, so, hl => by cases ha
  | 0, room, h, p :: w, r, a, l, i, hn, ha, so, hl => by simp at hn
  | n + 1, room, h, none :: w, r, a, l, i, hn, ha, so, hl => by
    refine releaseD_sole n room h w r a l (i.perm (fun a => by simp)) (by simp at hn; omega) ?_ so hl
    rcases List.mem_cons.mp ha with h1 | h1
    · cases h1
    · exact h1
  | n + 1, room, h, some b :: w, r, a, l, i, hn, ha, so, hl => by
    obtain ⟨c, hc⟩ := i.alive (a := b) (by simp)
    have hpos := i.pos b c hc
    simp only [List.length_cons] at hn hl
    simp only [releaseD, hc]
    by_cases hab : b = a
    · subst hab
      obtain ⟨c', hc', h1⟩ := so.2 b (List.mem_cons_self ..)
      rw [hc] at hc'
      cases hc'
      rw [if_pos h1]
      cases room with
      | zero => rfl
      | succ room =>
        simp only
        have hlen := refs_set_length h b _ none hc
        simp only [refsOf, List.length_nil] at hlen
        cases l with
        | nil => simp at hl
        | cons d l =>
          obtain ⟨c', hc', hm⟩ := holds_iff.mp so.1.1
          rw [hc] at hc'
          cases hc'
          have i2 := inv_destroy i hc h1
          have hd := i2.alive (a := d) (Or.inl (List.mem_append_left _ hm))
          have so' : Sole (h.set b none) (d :: l) := by
            refine Sole.keep i2 (sub_destroy hc) (fun x => ?_) l d hd so.tail
            rw [get_set hc]
            split
            · exact Nat.zero_le _
            · exact Nat.le_refl _
          rw [releaseD_sole n room (h.set b none) c.refs (w ++ r) d l i2 (by omega) hm so' (by simp only [List.length_cons] at hl ⊢; omega)]
          rfl
    · have haw : some a ∈ w := by
        rcases List.mem_cons.mp ha with h1 | h1
        · injection h1 with h1; exact absurd h1.symm hab
        · exact h1
      split
      · rename_i h1
        have hlen := refs_set_length h b _ none hc
        simp only [refsOf, List.length_nil] at hlen
        cases room with
        | zero => rfl
        | succ room =>
          simp only
          rcases releaseD_cases n room (h.set b none) c.refs (w ++ r) (inv_destroy i hc h1) (by omega) with
            ⟨g, e1, i1, s2⟩ | ⟨e1, -⟩
          · have s3 := s2.trans (sub_destroy hc)
            have hle := refs_le_of_sub s2
            rw [e1]
            refine releaseD_sole n (room + 1) g w r a l i1 (by omega) haw ?_ (by simpa using hl)
            refine Sole.keep i1 s3 (fun x => ?_) l a (i1.alive (Or.inl (List.mem_append_left _ haw))) so
            have e1 := i1.exact x
            have e2 := i.exact x
            have e3 := refs_count_of_sub (some x) s3
            rw [List.cons_append, List.count_cons] at e2
            omega
          · rw [e1]; rfl
      · rename_i h1
        rw [if_neg (by omega)]
        have hb : bare (h.set b (some { c with count := c.count - 1 })) = bare h := bare_set hc rfl rfl
        have s1 : Sub (h.set b (some { c with count := c.count - 1 })) h :=
          ⟨by simp, fun b d hd => bare_deref hb hd |>.imp fun _ x => x⟩
        have i1 : Inv (h.set b (some { c with count := c.count - 1 })) (w ++ r) :=
          i.update hc (show 0 < c.count - 1 by omega) (fun b => by
            rw [List.cons_append, count_cons_ite]
            simp only [Cell.refs]
            split <;> omega)
        refine releaseD_sole n room _ w r a l i1 (by rw [refs_of_bare hb]; omega) haw ?_ (by simpa using hl)
        refine Sole.keep i1 s1 (fun x => ?_) l a (i1.alive (Or.inl (List.mem_append_left _ haw))) so
        rw [get_set hc]
        split
        · rename_i e
          subst e
          rw [hc]
          simp only [cnt]
          omega
        · exact Nat.le_refl _

theorem low_of_chains {h : Heap} : ∀ (k : Nat) (a : Addr), (∀ l, Chain h (a :: l) → Alive h a → (a :: l).length ≤ k) → Low h k a
  | 0, a, hl => fun ha => by have := hl [] trivial ha; simp at this
  | k + 1, a, hl => fun b hb => by
    refine low_of_chains k b (fun l hc _ => ?_)
    obtain ⟨c, h1, _⟩ := holds_iff.mp hb
    have := hl (b :: l) ⟨hb, hc⟩ ⟨c, h1⟩
    simp only [List.length_cons] at *
    omega

/-- The limited destruction does what the other does. -/
theorem dropD_eq {h : Heap} {w r : List Ptr} (i : Inv h (w ++ r)) (room : Nat) (hl : ∀ a, some a ∈ w → Low h room a) :
    dropD room h w = drop h w := by
  obtain ⟨h', e, _, _⟩ := releaseD_spec _ room h w r i (Nat.le_refl _) hl
  obtain ⟨N, hN⟩ := releaseD_ok _ _ _ _ _ e
  obtain ⟨h'', e', _, _⟩ := drop_spec i
  have h1 := release_mono N h w h' (N + (h.refs.length + w.length)) hN (by omega)
  have h2 := release_mono _ h w h'' (N + (h.refs.length + w.length)) e' (by omega)
  rw [h1] at h2
  cases h2
  unfold dropD
  rw [e, e']

end Ab.EdnHeap.Stack
