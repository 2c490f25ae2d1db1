import Verif.Proof.EdnShare
import Verif.Props.EdnHeap
/-! C89: EDN nodes behave like objects that are never destroyed. -/
namespace Ab.EdnHeap

open Spec Edn Share

/-- The variables are the same, and every node the program can get at is there, with the same contents. -/
def LooksLike (s : State) (w : World) : Prop :=
  s.vars = w.vars ∧
    ∀ a, Reachable s a → ∃ c : Cell, s.heap[a]? = some (some c) ∧ w.objs[a]? = some ⟨c.mdata, c.body⟩

/-- C89: every program does the same as if nodes were plain objects that are never destroyed: it ends the same way,
and if it goes on, all its variables and everything it can get at through them are the same. -/
theorem C89_as_if_nothing_were_destroyed {L : HLib} (hL : Orderly L) (n vars : Nat) (os : List Op) :
    Same LooksLike (run L n (.start vars) os) (Share.run L n (.start vars) os) := by
  have h := run_same hL n os (s := .start vars) (w := .start vars) ⟨rfl, rfl, fun a c hc => by simp [State.start] at hc⟩
    (start_inv vars)
  have i := run_fine hL n os (start_inv vars)
  cases h1 : run L n (.start vars) os <;> cases h2 : Share.run L n (.start vars) os <;> rw [h1, h2] at h <;>
    first
    | exact h
    | exact (h : False).elim
    | skip
  rename_i s w
  rw [h1] at i
  refine ⟨h.vars, fun a ha => ?_⟩
  obtain ⟨v, hv, hl⟩ := ha
  obtain ⟨c, hc⟩ := leads_alive i hl (i.alive (Or.inl hv))
  exact ⟨c, hc, h.cells a c hc⟩

/-- C89 for comparing and hashing: they give the same answers as on objects that are never destroyed. -/
theorem C89_same_answers {L : HLib} (hL : Orderly L) (n vars : Nat) (os : List Op) (s : State) (w : World)
    (hs : run L n (.start vars) os = .ok s) (hw : Share.run L n (.start vars) os = .ok w) (p q : Ptr) (hp : p ∈ s.vars)
    (hq : q ∈ s.vars) (d : Nat) :
    eqH L.toLib s.heap d p q = eqH L.toLib w.heap d p q ∧ hashH L.toLib s.heap d p = hashH L.toLib w.heap d p := by
  have h := run_same hL n os (s := .start vars) (w := .start vars) ⟨rfl, rfl, fun a c hc => by simp [State.start] at hc⟩
    (start_inv vars)
  have i := run_fine hL n os (start_inv vars)
  rw [hs, hw] at h
  rw [hs] at i
  exact ⟨eq_same L.toLib h.h i.closed d p q (i.valid (Or.inl hp)) (i.valid (Or.inl hq)),
    hash_same L.toLib h.h i.closed d p (i.valid (Or.inl hp))⟩

theorem get_ok {w : World} {x : Nat} {p : Ptr} (h : w.get x = .ok p) : w.vars[x]? = some p := by
  unfold World.get at h
  split at h
  · rename_i hl; injection h with h; rw [List.getElem?_eq_getElem hl, h]
  · cases h

theorem put_ok {w w' : World} {x : Nat} {p : Ptr} (h : w.put x p = .ok w') :
    w'.objs = w.objs ∧ w'.vars = w.vars.set x p := by
  unfold World.put at h
  split at h
  · injection h with h; subst h; exact ⟨rfl, rfl⟩
  · cases h

theorem store_other {w : World} {p : Ptr} {o : Obj} {a : Nat} (h : p ≠ some a) : (w.store p o).objs[a]? = w.objs[a]? := by
  cases p with
  | none => rfl
  | some b =>
    have : b ≠ a := fun e => h (by rw [e])
    simp [World.store, List.getElem?_set, this]

/-- One step on plain objects: what is not named stays. -/
theorem world_frame {L : HLib} {n : Nat} {w w' : World} {o : Op} (h : Share.step L n w o = .ok w') :
    (∀ a, a < w.objs.length → (∀ x, target o = some x → w.vars[x]? ≠ some (some a)) → w'.objs[a]? = w.objs[a]?) ∧
    (∀ x, assigned o ≠ some x → w'.vars[x]? = w.vars[x]?) := by
  have hput : ∀ {u : World} {x : Nat} {p : Ptr}, u.put x p = .ok w' → u.vars = w.vars →
      (∀ a, a < w.objs.length → u.objs[a]? = w.objs[a]?) →
      (∀ a, a < w.objs.length → w'.objs[a]? = w.objs[a]?) ∧ ∀ y : Nat, x ≠ y → w'.vars[y]? = w.vars[y]? := by
    intro u x p hu hv ho
    obtain ⟨e1, e2⟩ := put_ok hu
    refine ⟨fun a ha => by rw [e1]; exact ho a ha, fun y hy => by rw [e2, hv, List.getElem?_set, if_neg hy]⟩
  have hnew : ∀ {x : Nat} {b : Body}, w.new x b = .ok w' →
      (∀ a, a < w.objs.length → w'.objs[a]? = w.objs[a]?) ∧ ∀ y : Nat, x ≠ y → w'.vars[y]? = w.vars[y]? := by
    intro x b hn
    exact hput hn rfl fun a ha => List.getElem?_append_left ha
  have hst : ∀ {x : Nat} {p : Ptr} {ob : Obj}, w.get x = .ok p → w' = w.store p ob →
      (∀ a, a < w.objs.length → (∀ y, some x = some y → w.vars[y]? ≠ some (some a)) → w'.objs[a]? = w.objs[a]?) ∧
      ∀ y : Nat, w'.vars[y]? = w.vars[y]? := by
    intro x p ob hg e
    subst e
    refine ⟨fun a _ hn => store_other fun e => hn x rfl (by rw [get_ok hg, e]), fun y => by cases p <;> rfl⟩
  cases o with
  | atom x a => exact ⟨fun a ha _ => (hnew h).1 a ha, fun y hy => (hnew h).2 y fun e => hy (by rw [e]; rfl)⟩
  | map x => exact ⟨fun a ha _ => (hnew h).1 a ha, fun y hy => (hnew h).2 y fun e => hy (by rw [e]; rfl)⟩
  | list x ys =>
    obtain ⟨ps, _, h⟩ := Outcome.bind_eq_ok.mp h
    exact ⟨fun a ha _ => (hnew h).1 a ha, fun y hy => (hnew h).2 y fun e => hy (by rw [e]; rfl)⟩
  | vec x ys =>
    obtain ⟨ps, _, h⟩ := Outcome.bind_eq_ok.mp h
    exact ⟨fun a ha _ => (hnew h).1 a ha, fun y hy => (hnew h).2 y fun e => hy (by rw [e]; rfl)⟩
  | copy x y =>
    obtain ⟨ps, _, h⟩ := Outcome.bind_eq_ok.mp h
    have := hput h rfl fun _ _ => rfl
    exact ⟨fun a ha _ => this.1 a ha, fun y hy => this.2 y fun e => hy (by rw [e]; rfl)⟩
  | null x =>
    have := hput h rfl fun _ _ => rfl
    exact ⟨fun a ha _ => this.1 a ha, fun y hy => this.2 y fun e => hy (by rw [e]; rfl)⟩
  | push c y =>
    obtain ⟨p, hp, h⟩ := Outcome.bind_eq_ok.mp h
    obtain ⟨q, _, h⟩ := Outcome.bind_eq_ok.mp h
    obtain ⟨ob, _, h⟩ := Outcome.bind_eq_ok.mp h
    obtain ⟨⟨xs, mk⟩, _, h⟩ := Outcome.bind_eq_ok.mp h
    injection h with h
    exact ⟨(hst hp h.symm).1, fun y _ => (hst hp h.symm).2 y⟩
  | setAt c j y =>
    obtain ⟨p, hp, h⟩ := Outcome.bind_eq_ok.mp h
    obtain ⟨q, _, h⟩ := Outcome.bind_eq_ok.mp h
    obtain ⟨ob, _, h⟩ := Outcome.bind_eq_ok.mp h
    obtain ⟨⟨xs, mk⟩, _, h⟩ := Outcome.bind_eq_ok.mp h
    simp only at h
    split at h
    · injection h with h
      exact ⟨(hst hp h.symm).1, fun y _ => (hst hp h.symm).2 y⟩
    · cases h
  | getAt x c j =>
    obtain ⟨p, hp, h⟩ := Outcome.bind_eq_ok.mp h
    obtain ⟨ob, _, h⟩ := Outcome.bind_eq_ok.mp h
    obtain ⟨⟨xs, mk⟩, _, h⟩ := Outcome.bind_eq_ok.mp h
    simp only at h
    split at h
    · have := hput h rfl fun _ _ => rfl
      exact ⟨fun a ha _ => this.1 a ha, fun y hy => this.2 y fun e => hy (by rw [e]; rfl)⟩
    · cases h
  | clear c =>
    obtain ⟨p, hp, h⟩ := Outcome.bind_eq_ok.mp h
    obtain ⟨ob, _, h⟩ := Outcome.bind_eq_ok.mp h
    obtain ⟨⟨xs, mk⟩, _, h⟩ := Outcome.bind_eq_ok.mp h
    injection h with h
    exact ⟨(hst hp h.symm).1, fun y _ => (hst hp h.symm).2 y⟩
  | setAtom c v =>
    obtain ⟨p, hp, h⟩ := Outcome.bind_eq_ok.mp h
    obtain ⟨ob, _, h⟩ := Outcome.bind_eq_ok.mp h
    split at h
    · injection h with h
      exact ⟨(hst hp h.symm).1, fun y _ => (hst hp h.symm).2 y⟩
    · cases h
  | setMeta c y =>
    obtain ⟨p, hp, h⟩ := Outcome.bind_eq_ok.mp h
    obtain ⟨q, _, h⟩ := Outcome.bind_eq_ok.mp h
    obtain ⟨ob, _, h⟩ := Outcome.bind_eq_ok.mp h
    obtain ⟨mo, _, h⟩ := Outcome.bind_eq_ok.mp h
    obtain ⟨es, _, h⟩ := Outcome.bind_eq_ok.mp h
    injection h with h
    exact ⟨(hst hp h.symm).1, fun y _ => (hst hp h.symm).2 y⟩
  | getMeta x c =>
    obtain ⟨p, hp, h⟩ := Outcome.bind_eq_ok.mp h
    obtain ⟨ob, _, h⟩ := Outcome.bind_eq_ok.mp h
    have := hput h rfl fun _ _ => rfl
    exact ⟨fun a ha _ => this.1 a ha, fun y hy => this.2 y fun e => hy (by rw [e]; rfl)⟩
  | insert m k v =>
    obtain ⟨p, hp, h⟩ := Outcome.bind_eq_ok.mp h
    obtain ⟨kp, _, h⟩ := Outcome.bind_eq_ok.mp h
    obtain ⟨vp, _, h⟩ := Outcome.bind_eq_ok.mp h
    obtain ⟨ob, _, h⟩ := Outcome.bind_eq_ok.mp h
    obtain ⟨es, _, h⟩ := Outcome.bind_eq_ok.mp h
    obtain ⟨⟨x, r⟩, _, h⟩ := Outcome.bind_eq_ok.mp h
    cases r with
    | some e => injection h with h; subst h; exact ⟨fun _ _ _ => rfl, fun _ _ => rfl⟩
    | none =>
      cases kp with
      | none => cases h
      | some ka =>
        injection h with h
        exact ⟨(hst hp h.symm).1, fun y _ => (hst hp h.symm).2 y⟩
  | find x m k =>
    obtain ⟨p, hp, h⟩ := Outcome.bind_eq_ok.mp h
    obtain ⟨kp, _, h⟩ := Outcome.bind_eq_ok.mp h
    obtain ⟨ob, _, h⟩ := Outcome.bind_eq_ok.mp h
    obtain ⟨es, _, h⟩ := Outcome.bind_eq_ok.mp h
    obtain ⟨⟨y, r⟩, _, h⟩ := Outcome.bind_eq_ok.mp h
    cases r with
    | none => cases h
    | some e =>
      have := hput h rfl fun _ _ => rfl
      exact ⟨fun a ha _ => this.1 a ha, fun y hy => this.2 y fun e => hy (by rw [e]; rfl)⟩

/-- C89, what is not named stays: after a step, every node that was there before and that the program can still get
at, other than the one the step was told to change, has the contents it had; and so has every variable other than
the one assigned to. -/
theorem C89_only_the_named_node_changes {L : HLib} (hL : Orderly L) (n vars : Nat) (os : List Op) (s s' : State) (o : Op)
    (hs : run L n (.start vars) os = .ok s) (hs' : step L n s o = .ok s') :
    (∀ (a : Addr) (c : Cell), s.heap[a]? = some (some c) → Reachable s' a → (∀ x, target o = some x → s.vars[x]? ≠ some (some a)) →
      ∃ c' : Cell, s'.heap[a]? = some (some c') ∧ c'.body = c.body ∧ c'.mdata = c.mdata) ∧
    ∀ x, assigned o ≠ some x → s'.vars[x]? = s.vars[x]? := by
  have h := run_same hL n os (s := .start vars) (w := .start vars) ⟨rfl, rfl, fun a c hc => by simp [State.start] at hc⟩
    (start_inv vars)
  have i := run_fine hL n os (start_inv vars)
  rw [hs] at i h
  cases hw : Share.run L n (.start vars) os <;> rw [hw] at h <;> first | exact (h : False).elim | skip
  rename_i w
  have h2 := step_same hL n (h : Sim s w) i o
  have i2 := step_fine hL n i o
  rw [hs'] at h2 i2
  cases hw' : Share.step L n w o <;> rw [hw'] at h2 <;> first | exact (h2 : False).elim | skip
  rename_i w'
  obtain ⟨f1, f2⟩ := world_frame hw'
  have hsim : Sim s w := h
  have hsim' : Sim s' w' := h2
  refine ⟨fun a c hc hr hn => ?_, fun x hx => by rw [hsim'.vars, hsim.vars]; exact f2 x hx⟩
  obtain ⟨v, hv, hl⟩ := hr
  obtain ⟨c', hc'⟩ := leads_alive i2 hl (i2.alive (Or.inl hv))
  have e1 := hsim'.cells a c' hc'
  rw [f1 a (by rw [← hsim.len]; exact (List.getElem?_eq_some_iff.mp hc).1) (fun x hx => by rw [← hsim.vars]; exact hn x hx)] at e1
  have e2 := hsim.cells a c hc
  rw [e1] at e2
  injection e2 with e2
  injection e2 with e3 e4
  exact ⟨c', hc', e4, e3⟩

/-- C89, sharing: pushing onto a list or vector through one pointer is seen through every other pointer to it. -/
theorem C89_seen_through_every_pointer {L : HLib} (hL : Orderly L) (n vars : Nat) (os : List Op) (s s' : State) (c y : Nat)
    (a : Addr) (q : Ptr) (cell : Cell) (xs : List Ptr)
    (hs : run L n (.start vars) os = .ok s) (hc : s.vars[c]? = some (some a)) (hy : s.vars[y]? = some q)
    (ha : s.heap[a]? = some (some cell)) (hs' : step L n s (.push c y) = .ok s') :
    (cell.body = .list xs → ∃ cell' : Cell, s'.heap[a]? = some (some cell') ∧ cell'.body = .list (xs ++ [q])) ∧
    (cell.body = .vec xs → ∃ cell' : Cell, s'.heap[a]? = some (some cell') ∧ cell'.body = .vec (xs ++ [q])) ∧
    ∀ d : Nat, s.vars[d]? = some (some a) → s'.vars[d]? = some (some a) := by
  have h := run_same hL n os (s := .start vars) (w := .start vars) ⟨rfl, rfl, fun a c hc => by simp [State.start] at hc⟩
    (start_inv vars)
  have i := run_fine hL n os (start_inv vars)
  rw [hs] at i h
  cases hw : Share.run L n (.start vars) os <;> rw [hw] at h <;> first | exact (h : False).elim | skip
  rename_i w
  have hsim : Sim s w := h
  have h2 := step_same hL n hsim i (.push c y)
  have i2 := step_fine hL n i (.push c y)
  rw [hs'] at h2 i2
  cases hw' : Share.step L n w (.push c y) <;> rw [hw'] at h2 <;> first | exact (h2 : False).elim | skip
  rename_i w'
  have hsim' : Sim s' w' := h2
  have e0 := hsim.cells a cell ha
  have g : ∀ {x : Nat} {p : Ptr}, s.vars[x]? = some p → w.get x = .ok p := by
    intro x p hx
    rw [hsim.vars] at hx
    obtain ⟨hl, hx⟩ := List.getElem?_eq_some_iff.mp hx
    unfold World.get
    rw [dif_pos hl, hx]
  have e1 : w.look (some a) = .ok ⟨cell.mdata, cell.body⟩ := by
    obtain ⟨hl, hx⟩ := List.getElem?_eq_some_iff.mp e0
    simp only [World.look, dif_pos hl, hx]
  have hv : s'.vars = s.vars := by
    obtain ⟨p, hp, hh⟩ := Outcome.bind_eq_ok.mp hw'
    obtain ⟨q, _, hh⟩ := Outcome.bind_eq_ok.mp hh
    obtain ⟨ob, _, hh⟩ := Outcome.bind_eq_ok.mp hh
    obtain ⟨⟨xs, mk⟩, _, hh⟩ := Outcome.bind_eq_ok.mp hh
    injection hh with hh
    rw [hsim'.vars, ← hh, hsim.vars]
    cases p <;> rfl
  have alive : ∃ c', s'.heap[a]? = some (some c') := i2.alive (Or.inl (by rw [hv]; exact List.mem_of_getElem? hc))
  obtain ⟨c', hc'⟩ := alive
  have e2 := hsim'.cells a c' hc'
  have hlt : a < w.objs.length := (List.getElem?_eq_some_iff.mp e0).1
  refine ⟨fun hb => ⟨c', hc', ?_⟩, fun hb => ⟨c', hc', ?_⟩, fun d hd => by rw [hv]; exact hd⟩
  all_goals
    simp only [Share.step, g hc, g hy, e1, hb, sequence, Outcome.ok_bind, World.store] at hw'
    injection hw' with hw'
    rw [← hw'] at e2
    simp only [List.getElem?_set, if_pos hlt] at e2
    injection e2 with e2
    injection e2 with _ e2
    exact e2.symm

/-- A list reached from two variables and from a vector is changed through one of them; another node is destroyed. -/
def aliased : List Op := [.list 0 [], .copy 1 0, .vec 2 [0], .atom 3 (.int 7), .push 1 3, .atom 3 (.int 8), .getAt 0 2 0]

example : run demoH 9 (.start 4) aliased = .ok ⟨[some ⟨3, none, .list [some 2]⟩, some ⟨1, none, .vec [some 0]⟩,
    some ⟨1, none, .atom (.int 7)⟩, some ⟨1, none, .atom (.int 8)⟩], [some 0, some 0, some 1, some 3]⟩ := by decide +kernel

example : Share.run demoH 9 (.start 4) aliased = .ok ⟨[⟨none, .list [some 2]⟩, ⟨none, .vec [some 0]⟩,
    ⟨none, .atom (.int 7)⟩, ⟨none, .atom (.int 8)⟩], [some 0, some 0, some 1, some 3]⟩ := by decide +kernel

/-- With the counts, what nobody refers to any more is gone; without them, it is still there. -/
example : run demoH 9 (.start 1) [.atom 0 (.int 7), .atom 0 (.int 8)] =
      .ok ⟨[none, some ⟨1, none, .atom (.int 8)⟩], [some 1]⟩ ∧
    Share.run demoH 9 (.start 1) [.atom 0 (.int 7), .atom 0 (.int 8)] =
      .ok ⟨[⟨none, .atom (.int 7)⟩, ⟨none, .atom (.int 8)⟩], [some 1]⟩ := by decide +kernel

/-- The case of `C89_seen_through_every_pointer`: variable 1 is told, variable 0 sees it. -/
example : run demoH 9 (.start 3) [.list 0 [], .copy 1 0, .atom 2 (.int 7)] =
      .ok ⟨[some ⟨2, none, .list []⟩, some ⟨1, none, .atom (.int 7)⟩], [some 0, some 0, some 1]⟩ ∧
    step demoH 9 ⟨[some ⟨2, none, .list []⟩, some ⟨1, none, .atom (.int 7)⟩], [some 0, some 0, some 1]⟩ (.push 1 2) =
      .ok ⟨[some ⟨2, none, .list [some 1]⟩, some ⟨2, none, .atom (.int 7)⟩], [some 0, some 0, some 1]⟩ := by decide +kernel

end Ab.EdnHeap
