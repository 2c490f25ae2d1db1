import Verif.Proof.EdnHeap2
import Verif.Props.EdnNode
/-! C86: EDN nodes as shared objects. -/
namespace Ab.EdnHeap

open Spec Edn

/-- A library for the witnesses. -/
def demoH : HLib := { demo with hplace := fun es e => e :: es }

theorem demoH_orderly : Orderly demoH := fun _ _ => .refl _

/-- C86, safety: no program follows a pointer to a destroyed node, or destroys a node twice; the only undefined
behaviour is to follow a null pointer. -/
theorem C86_no_use_after_free {L : HLib} (hL : Orderly L) (n vars : Nat) (os : List Op) (m : String)
    (h : run L n (.start vars) os = .ub m) : m = "null pointer" := by
  have := run_fine hL n os (start_inv vars)
  rw [h] at this
  exact this

/-- C86, exactly which nodes live: after any program, the nodes the program can get at, and those it cannot
that lie on, or behind, a cycle. -/
theorem C86_alive_exactly {L : HLib} (hL : Orderly L) (n vars : Nat) (os : List Op) (s : State)
    (h : run L n (.start vars) os = .ok s) (a : Addr) :
    Alive s.heap a ↔ Reachable s a ∨ ∃ z, OnCycle s.heap z ∧ Leads s.heap z a := by
  have i := run_fine hL n os (start_inv vars)
  rw [h] at i
  change Inv s.heap s.vars at i
  constructor
  · intro ha
    by_cases hr : Reachable s a
    · exact Or.inl hr
    · exact Or.inr (back i ha hr)
  · rintro (⟨v, hv, hl⟩ | ⟨z, ⟨b, hb, _⟩, hl⟩)
    · exact leads_alive i hl (i.alive (Or.inl hv))
    · obtain ⟨c, hc, _⟩ := holds_iff.mp hb
      exact leads_alive i hl ⟨c, hc⟩

/-- C86 while no node is part of itself: a node lives exactly while the program can get at it; when all
variables are null nothing is left. -/
theorem C86_without_cycles_partial {L : HLib} (hL : Orderly L) (n vars : Nat) (os : List Op) (s : State)
    (h : run L n (.start vars) os = .ok s) (hc : ∀ z, ¬ OnCycle s.heap z) :
    (∀ a, Alive s.heap a ↔ Reachable s a) ∧ ((∀ p ∈ s.vars, p = none) → ∀ a, ¬ Alive s.heap a) := by
  have key : ∀ a, Alive s.heap a ↔ Reachable s a := fun a => by
    rw [C86_alive_exactly hL n vars os s h a]
    exact ⟨fun x => x.elim id fun ⟨z, hz, _⟩ => absurd hz (hc z), Or.inl⟩
  refine ⟨key, fun hv a ha => ?_⟩
  obtain ⟨v, hm, _⟩ := (key a).mp ha
  cases hv _ hm

/-- A shared integer in a list and a vector, with metadata; the list is then given up. -/
def shared : List Op :=
  [.atom 0 (.int 7), .list 1 [0, 0], .vec 2 [0, 1], .map 3, .setMeta 2 3, .getAt 0 1 0, .null 3, .clear 2, .null 1]

example : ∃ s, run demoH 9 (.start 4) shared = .ok s ∧ (∀ z, ¬ OnCycle s.heap z) ∧
    s.heap = [some ⟨1, none, .atom (.int 7)⟩, none, some ⟨1, some 3, .vec []⟩, some ⟨1, none, .map []⟩] := by
  refine ⟨⟨[some ⟨1, none, .atom (.int 7)⟩, none, some ⟨1, some 3, .vec []⟩, some ⟨1, none, .map []⟩],
    [some 0, none, some 2, none]⟩, by decide +kernel, ?_, rfl⟩
  have only : ∀ x y, Holds [some ⟨1, none, .atom (.int 7)⟩, none, some ⟨1, some 3, .vec []⟩, some ⟨1, none, .map []⟩] x y →
      x = 2 ∧ y = 3 := by
    intro x y hxy
    obtain ⟨c, hc, hm⟩ := holds_iff.mp hxy
    match x, hc with
    | 0, hc => cases hc; simp [Cell.refs, Body.refs] at hm
    | 1, hc => cases hc
    | 2, hc => cases hc; simp [Cell.refs, Body.refs] at hm; exact ⟨rfl, hm⟩
    | 3, hc => cases hc; simp [Cell.refs, Body.refs] at hm
    | n + 4, hc => simp at hc
  rintro z ⟨b, hb, hl⟩
  obtain ⟨rfl, rfl⟩ := only _ _ hb
  cases hl with
  | step h1 _ => exact absurd (only _ _ h1).1 (by decide)

/-- C86 is false of the code: a list pushed into itself, or a map that is its own metadata, is never destroyed,
although no variable is left. -/
theorem C86_negation :
    (∃ s, run demoH 9 (.start 1) [.list 0 [], .push 0 0, .null 0] = .ok s ∧ (∀ p ∈ s.vars, p = none) ∧
      Alive s.heap 0 ∧ ¬ Reachable s 0) ∧
    ∃ s, run demoH 9 (.start 1) [.map 0, .setMeta 0 0, .null 0] = .ok s ∧ (∀ p ∈ s.vars, p = none) ∧
      Alive s.heap 0 ∧ ¬ Reachable s 0 := by
  refine ⟨⟨⟨[some ⟨1, none, .list [some 0]⟩], [none]⟩, by decide +kernel, by decide, ⟨_, rfl⟩, ?_⟩,
    ⟨⟨[some ⟨1, some 0, .map []⟩], [none]⟩, by decide +kernel, by decide, ⟨_, rfl⟩, ?_⟩⟩ <;>
  · rintro ⟨v, hv, _⟩
    simp at hv

/-- C86, cycles leak: a node that is part of itself survives the end of every variable's life. -/
theorem C86_cycles_are_never_freed {L : HLib} (hL : Orderly L) (n vars : Nat) (os : List Op) (s s' : State)
    (h : run L n (.start vars) os = .ok s) (z : Addr) (hz : OnCycle s.heap z)
    (h' : run L n s ((List.range vars).map .null) = .ok s') : Alive s'.heap z := by
  have i := run_fine hL n os (start_inv vars)
  rw [h] at i
  have k := nulls_kept hL n _ i (cycle_kept hz) h'
  have i' := run_fine hL n ((List.range vars).map .null) i
  rw [h'] at i'
  obtain ⟨y, _, hh⟩ := k z ⟨.refl, .refl⟩
  obtain ⟨c, hc, hm⟩ := holds_iff.mp hh
  exact i'.alive (Or.inr (mem_refs hc hm))

example : ∃ s s', run demoH 9 (.start 2) [.list 0 [], .vec 1 [0], .push 0 1, .null 1] = .ok s ∧ OnCycle s.heap 1 ∧
    run demoH 9 s ((List.range 2).map .null) = .ok s' :=
  ⟨⟨[some ⟨2, none, .list [some 1]⟩, some ⟨1, none, .vec [some 0]⟩], [some 0, none]⟩,
    ⟨[some ⟨1, none, .list [some 1]⟩, some ⟨1, none, .vec [some 0]⟩], [none, none]⟩, by decide +kernel,
    ⟨0, ⟨_, rfl, Or.inr (by simp)⟩, .step ⟨_, rfl, Or.inr (by simp)⟩ .refl⟩, by decide +kernel⟩

end Ab.EdnHeap
