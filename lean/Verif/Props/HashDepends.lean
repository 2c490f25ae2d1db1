import Verif.Spec.EdnReplace
import Verif.Props.EdnNode
import Verif.Props.Util
import Verif.Model.Types
/-! C124: what a hash depends on. -/
namespace Ab.Edn

open Spec

theorem mul37 (a b : U64) : a * 37#64 = b * 37#64 ↔ a = b := by
  constructor
  · intro h
    have h1 := congrArg (fun x => x * 0x14c1bacf914c1bad#64) h
    simp only [BitVec.mul_assoc] at h1
    rw [show 37#64 * 0x14c1bacf914c1bad#64 = 1#64 by decide, BitVec.mul_one, BitVec.mul_one] at h1
    exact h1
  · rintro rfl; rfl

theorem add_left (c a b : U64) : c + a = c + b ↔ a = b := by
  constructor
  · intro h
    have h1 := congrArg (fun x => x - c) h
    simp only [BitVec.add_comm c, BitVec.add_sub_cancel] at h1
    exact h1
  · rintro rfl; rfl

theorem mix_left (a b c : U64) : mix a c = mix b c ↔ a = b := by
  unfold mix
  rw [BitVec.add_comm _ c, BitVec.add_comm _ c, add_left, mul37]

theorem mix_right (c a b : U64) : mix c a = mix c b ↔ a = b := by
  unfold mix
  rw [add_left]

/-- Hashes that differ before some more elements differ after them. -/
theorem hashList_start (L : Lib) : ∀ (xs : List Node) (h g r : U64), hashList L xs h = .ok r →
    ∃ q, hashList L xs g = .ok q ∧ (r = q ↔ h = g)
  | [], h, g, r, e => by injection e with e; subst e; exact ⟨g, rfl, Iff.rfl⟩
  | x :: xs, h, g, r, e => by
    rw [hashList] at e ⊢
    obtain ⟨hx, e1, e2⟩ := Outcome.bind_eq_ok.mp e
    obtain ⟨q, e3, e4⟩ := hashList_start L xs _ (mix g hx) _ e2
    refine ⟨q, by rw [e1]; exact e3, ?_⟩
    rw [e4, mix_left]

theorem hashEntries_start (L : Lib) : ∀ (es : List (Node × Node)) (h g r : U64), hashEntries L es h = .ok r →
    ∃ q, hashEntries L es g = .ok q ∧ (r = q ↔ h = g)
  | [], h, g, r, e => by
    simp only [hashEntries] at e ⊢
    injection e with e; subst e; exact ⟨g, rfl, Iff.rfl⟩
  | (k, v) :: es, h, g, r, e => by
    rw [hashEntries, hashEntry] at e ⊢
    obtain ⟨h1, e1, e2⟩ := Outcome.bind_eq_ok.mp e
    obtain ⟨hk, e3, e1⟩ := Outcome.bind_eq_ok.mp e1
    obtain ⟨hv, e4, e1⟩ := Outcome.bind_eq_ok.mp e1
    injection e1 with e1; subst e1
    obtain ⟨q, e5, e6⟩ := hashEntries_start L es _ (mix (mix g hk) hv) _ e2
    refine ⟨q, by rw [e3, e4]; exact e5, ?_⟩
    rw [e6, mix_left, mix_left]

theorem hashList_at (L : Lib) : ∀ (xs : List Node) (x y : Node) (ys : List Node) (h r hx hy : U64),
    Node.hash L x = .ok hx → Node.hash L y = .ok hy → hashList L (xs ++ x :: ys) h = .ok r →
    ∃ q, hashList L (xs ++ y :: ys) h = .ok q ∧ (r = q ↔ hx = hy)
  | [], x, y, ys, h, r, hx, hy, h1, h2, e => by
    rw [List.nil_append] at e ⊢
    rw [hashList, h1] at e
    rw [hashList, h2]
    obtain ⟨q, e3, e4⟩ := hashList_start L ys _ (mix h hy) _ e
    exact ⟨q, e3, by rw [e4, mix_right]⟩
  | z :: xs, x, y, ys, h, r, hx, hy, h1, h2, e => by
    rw [List.cons_append, hashList] at e ⊢
    obtain ⟨hz, e1, e2⟩ := Outcome.bind_eq_ok.mp e
    obtain ⟨q, e3, e4⟩ := hashList_at L xs x y ys _ r hx hy h1 h2 e2
    exact ⟨q, by rw [e1]; exact e3, e4⟩

theorem hashEntries_at (L : Lib) : ∀ (xs : List (Node × Node)) (x y : Node × Node) (ys : List (Node × Node)) (h r : U64) (P : Prop),
    (∀ h r, hashEntry L x h = .ok r → ∃ q, hashEntry L y h = .ok q ∧ (r = q ↔ P)) →
    hashEntries L (xs ++ x :: ys) h = .ok r → ∃ q, hashEntries L (xs ++ y :: ys) h = .ok q ∧ (r = q ↔ P)
  | [], x, y, ys, h, r, P, hxy, e => by
    rw [List.nil_append, hashEntries] at e ⊢
    obtain ⟨h1, e1, e2⟩ := Outcome.bind_eq_ok.mp e
    obtain ⟨q1, e3, e4⟩ := hxy _ _ e1
    obtain ⟨q, e5, e6⟩ := hashEntries_start L ys _ q1 _ e2
    exact ⟨q, by rw [e3]; exact e5, by rw [e6, e4]⟩
  | z :: xs, x, y, ys, h, r, P, hxy, e => by
    rw [List.cons_append, hashEntries] at e ⊢
    obtain ⟨h1, e1, e2⟩ := Outcome.bind_eq_ok.mp e
    obtain ⟨q, e3, e4⟩ := hashEntries_at L xs x y ys _ r P hxy e2
    exact ⟨q, by rw [e1]; exact e3, e4⟩

/-- C124, trees: replace a node anywhere in a tree by another. The tree's hash stays the same if and only if the hashes of the two
nodes are the same: every node in a tree, at any depth, counts. -/
theorem C124_every_node_counts (L : Lib) (a b n m : Node) (ha hb hn : U64) (h : Replaced a b n m)
    (h1 : Node.hash L a = .ok ha) (h2 : Node.hash L b = .ok hb) (h3 : Node.hash L n = .ok hn) :
    ∃ hm, Node.hash L m = .ok hm ∧ (hn = hm ↔ ha = hb) := by
  have inner : ∀ {n m : Node}, Replaced a b n m → ∀ {hn}, Node.hash L n = .ok hn →
      ∃ hm, Node.hash L m = .ok hm ∧ (hn = hm ↔ ha = hb) := by
    intro n m h
    induction h with
    | here => intro hn h3; rw [h1] at h3; injection h3 with h3; subst h3; exact ⟨hb, h2, Iff.rfl⟩
    | @list x y xs ys _ ih =>
      intro hn h3
      rw [Node.hash] at h3 ⊢
      have hx : ∃ hx, Node.hash L x = .ok hx := by
        clear ih
        generalize mix HASH_SEED 8#64 = h0 at h3
        induction xs generalizing h0 with
        | nil => rw [List.nil_append, hashList] at h3; obtain ⟨hx, e, -⟩ := Outcome.bind_eq_ok.mp h3; exact ⟨hx, e⟩
        | cons z xs ihx => rw [List.cons_append, hashList] at h3; obtain ⟨_, _, e⟩ := Outcome.bind_eq_ok.mp h3; exact ihx _ e
      obtain ⟨hx, hx'⟩ := hx
      obtain ⟨hy, hy', hi⟩ := ih hx'
      obtain ⟨q, e1, e2⟩ := hashList_at L xs x y ys _ _ hx hy hx' hy' h3
      exact ⟨q, e1, e2.trans hi⟩
    | @vec x y xs ys _ ih =>
      intro hn h3
      rw [Node.hash] at h3 ⊢
      have hx : ∃ hx, Node.hash L x = .ok hx := by
        clear ih
        generalize mix HASH_SEED 9#64 = h0 at h3
        induction xs generalizing h0 with
        | nil => rw [List.nil_append, hashList] at h3; obtain ⟨hx, e, -⟩ := Outcome.bind_eq_ok.mp h3; exact ⟨hx, e⟩
        | cons z xs ihx => rw [List.cons_append, hashList] at h3; obtain ⟨_, _, e⟩ := Outcome.bind_eq_ok.mp h3; exact ihx _ e
      obtain ⟨hx, hx'⟩ := hx
      obtain ⟨hy, hy', hi⟩ := ih hx'
      obtain ⟨q, e1, e2⟩ := hashList_at L xs x y ys _ _ hx hy hx' hy' h3
      exact ⟨q, e1, e2.trans hi⟩
    | @key x y v xs ys _ ih =>
      intro hn h3
      rw [Node.hash] at h3 ⊢
      refine hashEntries_at L xs (x, v) (y, v) ys _ _ _ ?_ h3
      intro h r e
      rw [hashEntry] at e ⊢
      obtain ⟨hk, e3, e⟩ := Outcome.bind_eq_ok.mp e
      obtain ⟨hv, e4, e⟩ := Outcome.bind_eq_ok.mp e
      injection e with e; subst e
      obtain ⟨hy, hy', hi⟩ := ih e3
      refine ⟨_, by rw [hy', e4]; rfl, ?_⟩
      rw [mix_left, mix_right, hi]
    | @val x y k xs ys _ ih =>
      intro hn h3
      rw [Node.hash] at h3 ⊢
      refine hashEntries_at L xs (k, x) (k, y) ys _ _ _ ?_ h3
      intro h r e
      rw [hashEntry] at e ⊢
      obtain ⟨hk, e3, e⟩ := Outcome.bind_eq_ok.mp e
      obtain ⟨hv, e4, e⟩ := Outcome.bind_eq_ok.mp e
      injection e with e; subst e
      obtain ⟨hy, hy', hi⟩ := ih e4
      refine ⟨_, by rw [e3, hy']; rfl, ?_⟩
      rw [mix_right, hi]
  exact inner h h3

/-- C124, leaves: two symbols, or two keywords, hash alike only if they are the same; two integers, booleans, reals or strings only if
the standard library hashes their values alike. -/
theorem C124_leaves (L : Lib) :
    (∀ i j, Node.hash L (.sym i) = Node.hash L (.sym j) ↔ i = j) ∧
    (∀ i j, Node.hash L (.kw i) = Node.hash L (.kw j) ↔ i = j) ∧
    (∀ v w, Node.hash L (.int v) = Node.hash L (.int w) ↔ L.hashLong v = L.hashLong w) ∧
    (∀ v w, Node.hash L (.bool v) = Node.hash L (.bool w) ↔ L.hashBool v = L.hashBool w) ∧
    (∀ v w, Node.hash L (.real v) = Node.hash L (.real w) ↔ L.hashDouble v = L.hashDouble w) ∧
    (∀ v w, Node.hash L (.str v) = Node.hash L (.str w) ↔ L.hashString v = L.hashString w) := by
  have one : ∀ k a b : U64, (Outcome.ok (hash2 k a) : Outcome U64) = .ok (hash2 k b) ↔ a = b := by
    intro k a b
    unfold hash2
    constructor
    · intro h; injection h with h; exact (mix_right _ _ _).mp h
    · rintro rfl; rfl
  refine ⟨fun i j => ?_, fun i j => ?_, fun i j => ?_, fun i j => ?_, fun i j => ?_, fun i j => ?_⟩ <;>
    rw [Node.hash, Node.hash, one]
  · exact Ab.Util.C47_integer_hash_injective i j
  · exact Ab.Util.C47_integer_hash_injective i j

/-- C124: a list and a vector of the same elements never hash alike. -/
theorem C124_list_or_vector (L : Lib) (xs : List Node) (h : U64) (h1 : Node.hash L (.list xs) = .ok h) :
    ∃ g, Node.hash L (.vec xs) = .ok g ∧ h ≠ g := by
  rw [Node.hash] at h1
  obtain ⟨q, e1, e2⟩ := hashList_start L xs _ (mix HASH_SEED 9#64) _ h1
  simp only [Node.hash]
  refine ⟨q, e1, fun h0 => ?_⟩
  have := e2.mp h0
  revert this; decide

theorem foldl_start (f : Byte → U64) : ∀ (xs : List Byte) (h g : U64),
    xs.foldl (fun h ty => mix h (f ty)) h = xs.foldl (fun h ty => mix h (f ty)) g ↔ h = g
  | [], h, g => Iff.rfl
  | x :: xs, h, g => by rw [List.foldl_cons, List.foldl_cons, foldl_start f xs, mix_left]

/-- C124, function types: replacing the type of one argument or of one result by another makes a difference to the hash. -/
theorem C124_function_types (stdHash : Byte → U64) (hs : OneToOne stdHash) (xs ys zs : List Byte) (a b : Byte) :
    ((FuncType.mk (xs ++ a :: ys) zs).hash stdHash = (FuncType.mk (xs ++ b :: ys) zs).hash stdHash ↔ a = b) ∧
    ((FuncType.mk zs (xs ++ a :: ys)).hash stdHash = (FuncType.mk zs (xs ++ b :: ys)).hash stdHash ↔ a = b) := by
  have e : ∀ x y, stdHash x = stdHash y ↔ x = y := fun x y => ⟨hs x y, fun h => by rw [h]⟩
  have hl : (xs ++ a :: ys).length = (xs ++ b :: ys).length := by simp
  unfold FuncType.hash
  dsimp only
  rw [hl]
  simp only [List.foldl_append, List.foldl_cons]
  constructor
  · rw [foldl_start, foldl_start, mix_right, e]
  · rw [foldl_start, mix_right, e]

/-- C124, limits: another minimum, or another maximum, makes a difference to the hash. -/
theorem C124_limits (stdHash : U32 → U64) (hs : OneToOne stdHash) (n m n' m' : U32) :
    ((Limits.mk n m true).hash stdHash = (Limits.mk n' m true).hash stdHash ↔ n = n') ∧
    ((Limits.mk n m true).hash stdHash = (Limits.mk n m' true).hash stdHash ↔ m = m') ∧
    ((Limits.mk n m false).hash stdHash = (Limits.mk n' m' false).hash stdHash ↔ n = n') := by
  have e : ∀ x y, stdHash x = stdHash y ↔ x = y := fun x y => ⟨hs x y, fun h => by rw [h]⟩
  refine ⟨?_, ?_, ?_⟩
  · simp only [Limits.hash, if_true]
    rw [mix_left]
    constructor
    · intro h
      apply BitVec.eq_of_toNat_eq
      have := congrArg BitVec.toNat h
      simp only [BitVec.toNat_setWidth] at this
      have h1 := n.isLt
      have h2 := n'.isLt
      omega
    · rintro rfl; rfl
  · simp only [Limits.hash, if_true]
    rw [mix_right, e]
  · simp only [Limits.hash]
    exact e _ _

/-- The hypotheses are met: `(1 [2])` becomes `(1 [3])`, and the hashes differ. -/
example : Replaced (.int 2#64) (.int 3#64) (.list [.int 1#64, .vec [.int 2#64]]) (.list [.int 1#64, .vec [.int 3#64]]) ∧
    (Node.hash demo (.list [.int 1#64, .vec [.int 2#64]])).isOk = true ∧
    Node.hash demo (.int 2#64) ≠ Node.hash demo (.int 3#64) :=
  ⟨.list (xs := [.int 1#64]) (ys := []) (.vec (xs := []) (ys := []) .here), by decide +kernel, by decide +kernel⟩

/-- A one-to-one hash of value types and of numbers. -/
example : OneToOne (fun b : Byte => b.setWidth 64) ∧ OneToOne (fun b : U32 => b.setWidth 64) := by
  constructor <;>
  · intro x y h
    apply BitVec.eq_of_toNat_eq
    have := congrArg BitVec.toNat h
    simp only [BitVec.toNat_setWidth] at this
    have h1 := x.isLt
    have h2 := y.isLt
    omega

end Ab.Edn
