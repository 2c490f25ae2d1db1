import Verif.Proof.EdnHeap4
import Verif.Props.EdnHeap
/-! C87: comparing and hashing shared nodes. -/
namespace Ab.EdnHeap

open Spec Edn

/-- C87, the part that holds, about ending: a comparison whose left side does not contain itself comes back, and
so does hashing a node that does not contain itself. -/
theorem C87_ends_partial (L : Lib) (h : Heap) (a : Addr) (q : Ptr) (hf : Finite h a) :
    (∃ r, r ≠ .fuel ∧ Answers (fun n => eqH L h n (some a) q) r) ∧
    ∃ r, r ≠ .fuel ∧ Answers (fun n => hashH L h n (some a)) r := by
  have hd : PDepth h (h.length + 1) (some a) := finite_depth hf
  have h1 := eqH_nf L h (h.length + 1) (h.length + 2) (some a) q (by omega) hd
  have h2 := hashH_nf L h (h.length + 1) (h.length + 2) (some a) (by omega) hd
  exact ⟨⟨_, h1, le_answers (fun n => eqH_le L h n _ _) h1⟩, ⟨_, h2, le_answers (fun n => hashH_le L h n _) h2⟩⟩

/-- C87, the part that holds, about content: two nodes that do not contain themselves, and in which nothing is
null and no key has changed, each show one tree, and the comparison and the hash are those of the trees, however
the parts are shared. -/
theorem C87_by_content_partial (L : Lib) (h : Heap) (a b : Addr) (fa : Finite h a) (fb : Finite h b)
    (wa : Whole L h a) (wb : Whole L h b) :
    ∃ n m, Shows L h (some a) n ∧ Shows L h (some b) m ∧
      Answers (fun i => eqH L h i (some a) (some b)) (.ok (Node.eq L n m)) ∧
      Answers (fun i => hashH L h i (some a)) (Node.hash L n) := by
  obtain ⟨n, hn⟩ := shows_exists L _ a (finite_depth fa) wa
  obtain ⟨m, hm⟩ := shows_exists L _ b (finite_depth fb) wb
  exact ⟨n, m, hn, hm, eq_shows L n _ _ m hn hm, hash_shows L n _ hn⟩

/-- C87 for two trees that can be built, without NaN and without larger maps in keys: the comparison says whether
they are the same data. -/
theorem C87_same_data_partial (L : Lib) (hL : Lawful L) (h : Heap) (p q : Ptr) (n m : Node) (hn : Shows L h p n)
    (hm : Shows L h q m) (bn : Built L n) (bm : Built L m) (fn : NaNFree n) (sn : SmallKeys n) :
    ∃ r, Answers (fun i => eqH L h i p q) (.ok r) ∧ (r = true ↔ Same n m) :=
  ⟨_, eq_shows L n _ _ m hn hm, C37_equality_is_structural_partial L hL n m bn bm fn sn⟩

/-- A list of one shared integer twice, and one of two integers. -/
def twice : Heap := [some ⟨3, none, .atom (.int 7)⟩, some ⟨1, none, .list [some 0, some 0]⟩, some ⟨1, none, .atom (.int 7)⟩,
  some ⟨1, none, .list [some 0, some 2]⟩]

example : run demoH 9 (.start 4) [.atom 0 (.int 7), .list 1 [0, 0], .atom 2 (.int 7), .list 3 [0, 2], .null 0, .null 2] =
    .ok ⟨twice, [none, some 1, none, some 3]⟩ := by decide +kernel

theorem twice_parts {x y : Addr} (hp : Part twice x y) : (x = 1 ∧ y = 0) ∨ (x = 3 ∧ (y = 0 ∨ y = 2)) := by
  obtain ⟨c, hc, hm⟩ := part_iff.mp hp
  match x, hc with
  | 0, hc => cases hc; simp [Body.refs] at hm
  | 1, hc => cases hc; simp [Body.refs] at hm; exact Or.inl ⟨rfl, hm⟩
  | 2, hc => cases hc; simp [Body.refs] at hm
  | 3, hc => cases hc; simp [Body.refs] at hm; exact Or.inr ⟨rfl, hm⟩
  | k + 4, hc => simp [twice] at hc

theorem twice_within {x y : Addr} (hp : Within twice x y) : x = y ∨ y = 0 ∨ y = 2 := by
  induction hp with
  | refl => exact Or.inl rfl
  | step h1 _ ih =>
    rcases twice_parts h1 with ⟨_, rfl⟩ | ⟨_, rfl | rfl⟩
    · rcases ih with rfl | ih
      · simp
      · exact Or.inr ih
    · rcases ih with rfl | ih
      · simp
      · exact Or.inr ih
    · rcases ih with rfl | ih
      · simp
      · exact Or.inr ih

theorem twice_finite (x : Addr) : Finite twice x := by
  intro z _ b hb hw
  rcases twice_parts hb with ⟨rfl, rfl⟩ | ⟨rfl, rfl | rfl⟩ <;>
    · rcases twice_within hw with e | e | e <;> exact absurd e (by decide)

theorem twice_whole (x : Addr) (hx : x < 4) : Whole demo twice x := by
  have all : ∀ z : Nat, z < 4 → ∃ c : Cell, twice[z]? = some (some c) ∧
      match c.body with
      | .atom _ => True
      | .list xs => none ∉ xs
      | .vec xs => none ∉ xs
      | .map es => ∀ e ∈ es, e.val ≠ none ∧ Answers (fun n => hashH demo twice n (some e.key)) (.ok e.hash) := by
    intro z hz
    match z with
    | 0 => exact ⟨_, rfl, trivial⟩
    | 1 => exact ⟨_, rfl, by simp⟩
    | 2 => exact ⟨_, rfl, trivial⟩
    | 3 => exact ⟨_, rfl, by simp⟩
    | k + 4 => omega
  intro z hz
  rcases twice_within hz with rfl | rfl | rfl
  · exact all _ hx
  · exact all 0 (by decide)
  · exact all 2 (by decide)

example : ∃ n m, Shows demo twice (some 1) n ∧ Shows demo twice (some 3) m ∧
    Answers (fun i => eqH demo twice i (some 1) (some 3)) (.ok (Node.eq demo n m)) ∧
    Answers (fun i => hashH demo twice i (some 1)) (Node.hash demo n) :=
  C87_by_content_partial demo twice 1 3 (twice_finite 1) (twice_finite 3) (twice_whole 1 (by decide))
    (twice_whole 3 (by decide))

example : Shows demo twice (some 1) (.list [.int 7, .int 7]) ∧ Shows demo twice (some 3) (.list [.int 7, .int 7]) := by
  have i0 : Shows demo twice (some 0) (.int 7) := Shows.atom (x := .int 7) (c := ⟨3, none, .atom (.int 7)⟩) rfl rfl
  have i2 : Shows demo twice (some 2) (.int 7) := Shows.atom (x := .int 7) (c := ⟨1, none, .atom (.int 7)⟩) rfl rfl
  exact ⟨.list rfl rfl (.cons i0 (.cons i0 .nil)), .list rfl rfl (.cons i0 (.cons i2 .nil))⟩

example : eqH demo twice 3 (some 1) (some 3) = .ok true := by decide +kernel

/-- C87 is false of the code: comparing a list that was pushed into itself with itself never comes back, and
neither does hashing it. -/
theorem C87_negation : ∃ s, run demoH 9 (.start 1) [.list 0 [], .push 0 0] = .ok s ∧ s.vars = [some 0] ∧
    ∀ (L : Lib) (n : Nat), eqH L s.heap n (some 0) (some 0) = .fuel ∧ hashH L s.heap n (some 0) = .fuel := by
  refine ⟨⟨[some ⟨2, none, .list [some 0]⟩], [some 0]⟩, by decide +kernel, rfl, fun L n => ?_⟩
  induction n with
  | zero => exact ⟨rfl, rfl⟩
  | succ n ih =>
    obtain ⟨h1, h2⟩ := ih
    constructor
    · simp only [eqH, deref, List.getElem?_cons_zero, Outcome.ok_bind, List.length_singleton, if_true, eqLoop] at *
      rw [h1]; rfl
    · simp only [hashH, deref, List.getElem?_cons_zero, Outcome.ok_bind, hashLoop] at *
      rw [h2]; rfl

end Ab.EdnHeap
