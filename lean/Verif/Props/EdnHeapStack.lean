import Verif.Proof.EdnHeapStack
import Verif.Proof.EdnHeap4
import Verif.Props.EdnHeap
/-! C108: how much stack destroying, hashing and comparing EDN nodes takes. -/
namespace Ab.EdnHeap.Stack

open Ab.EdnHeap Spec Edn

/-- C108, the part that holds, about destruction: after any program, give up any variable, with stack for `room` nested destructors. If every
chain of nodes, each holding the next, that begins with the variable's node has at most `room` nodes, this does what it
does with unlimited stack; and it comes to an end. Missing: the states with longer chains. -/
theorem C108_destroy_partial {L : HLib} (hL : Orderly L) (n vars : Nat) (os : List Op) (s : State)
    (h : run L n (.start vars) os = .ok s) (x : Nat) (a : Addr) (hx : s.vars[x]? = some (some a)) (room : Nat)
    (hc : ∀ l, Chain s.heap (a :: l) → (a :: l).length ≤ room) :
    ∃ g, dropD room s.heap [some a] = .ok g ∧ step L n s (.null x) = .ok ⟨g, s.vars.set x none⟩ := by
  have i := run_fine hL n os (start_inv vars)
  rw [h] at i
  change Inv s.heap s.vars at i
  have i' : Inv s.heap ([some a] ++ s.vars.set x none) := i.perm (fun b => by
    have := set_count hx none (some b)
    simp [List.count_cons] at this ⊢
    omega)
  have e := dropD_eq i' room (fun b hb => by
    have : b = a := by simpa using hb
    subst this
    exact low_of_chains room b (fun l hl _ => hc l hl))
  obtain ⟨g, hg, _, _⟩ := drop_spec i'
  refine ⟨g, by rw [e]; exact hg, ?_⟩
  show State.assign s x none = _
  unfold State.assign State.var
  rw [hx]
  simp only [Outcome.ok_bind, hg]

/-- C108, where it fails: after any program, if the node of a variable begins a chain of more than `room` nodes, each holding the
next and each with no other use, giving the variable up overruns a stack for `room` nested destructors. -/
theorem C108_destroy_overruns_partial {L : HLib} (hL : Orderly L) (n vars : Nat) (os : List Op) (s : State)
    (h : run L n (.start vars) os = .ok s) (x : Nat) (a : Addr) (hx : s.vars[x]? = some (some a)) (room : Nat) (l : List Addr)
    (hc : Chain s.heap (a :: l)) (h1 : ∀ y ∈ a :: l, ∃ c, s.heap[y]? = some (some c) ∧ c.count = 1)
    (hl : room < (a :: l).length) : dropD room s.heap [some a] = .ub "stack overflow" := by
  have i := run_fine hL n os (start_inv vars)
  rw [h] at i
  change Inv s.heap s.vars at i
  have i' : Inv s.heap ([some a] ++ s.vars.set x none) := i.perm (fun b => by
    have := set_count hx none (some b)
    simp [List.count_cons] at this ⊢
    omega)
  exact releaseD_sole _ room s.heap [some a] _ a l i' (Nat.le_refl _) (by simp) ⟨hc, h1⟩ hl

/-- The program that makes an empty list and then, `k` times, puts the list into a new list. -/
def nestOps (k : Nat) : List Op := .list 0 [] :: List.replicate k (.list 0 [0])

/-- Node `i` of the result: a list whose one element is node `i - 1`. -/
def nestCell : Nat → Option Cell
  | 0 => some ⟨1, none, .list []⟩
  | i + 1 => some ⟨1, none, .list [some i]⟩

def nestHeap (k : Nat) : Heap := (List.range (k + 1)).map nestCell

theorem nestHeap_get {k i : Nat} (h : i ≤ k) : (nestHeap k)[i]? = some (nestCell i) := by
  simp [nestHeap, List.getElem?_range (show i < k + 1 by omega)]

theorem nestHeap_succ (k : Nat) : nestHeap (k + 1) = nestHeap k ++ [nestCell (k + 1)] := by
  simp [nestHeap, List.range_succ]

theorem nestCell_one (i : Nat) : ∃ c, nestCell i = some c ∧ c.count = 1 := by cases i <;> exact ⟨_, rfl, rfl⟩

theorem nest_step (L : HLib) (n k : Nat) : step L n ⟨nestHeap k, [some k]⟩ (.list 0 [0]) = .ok ⟨nestHeap (k + 1), [some (k + 1)]⟩ := by
  obtain ⟨c, hc, h1⟩ := nestCell_one k
  have hk : (nestHeap k)[k]? = some (some c) := by rw [nestHeap_get (Nat.le_refl k), hc]
  have hlen : (nestHeap k).length = k + 1 := by simp [nestHeap]
  have hlt : k < (nestHeap k).length := by omega
  have hk' : ((nestHeap k).set k (some { c with count := c.count + 1 }) ++ [some ⟨1, none, .list [some k]⟩])[k]? =
      some (some { c with count := c.count + 1 }) := by
    rw [List.getElem?_append_left (by simpa using hlt), List.getElem?_set_self hlt]
  have hd : drop ((nestHeap k).set k (some { c with count := c.count + 1 }) ++ [some ⟨1, none, .list [some k]⟩]) [some k] =
      .ok (nestHeap (k + 1)) := by
    unfold drop
    rw [List.length_singleton]
    simp only [release, hk']
    rw [if_neg (by omega), if_neg (by omega)]
    simp only [Nat.add_sub_cancel]
    rw [List.set_append_left _ _ (by simpa using hlt), List.set_set]
    have hset : (nestHeap k).set k (some c) = nestHeap k := by
      apply List.ext_getElem?
      intro j
      rw [get_set hk]
      split
      · rename_i e; rw [e, hk]
      · rfl
    rw [show ({ c with count := c.count } : Cell) = c from rfl, hset, nestHeap_succ]
    cases h2 : Heap.refs ((nestHeap k).set k (some { c with count := c.count + 1 }) ++ [some ⟨1, none, .list [some k]⟩]) <;> rfl
  show (do
    let ps ← State.varAll ⟨nestHeap k, [some k]⟩ [0]
    State.fresh ⟨nestHeap k, [some k]⟩ 0 (.list ps)) = _
  rw [show State.varAll ⟨nestHeap k, [some k]⟩ [0] = .ok [some k] from rfl]
  simp only [Outcome.ok_bind, State.fresh, Body.refs, retainAll, retain, hk, State.assign]
  rw [show State.var ⟨(nestHeap k).set k (some { c with count := c.count + 1 }) ++ [some ⟨1, none, .list [some k]⟩], [some k]⟩ 0 =
    .ok (some k) from rfl]
  simp only [Outcome.ok_bind, hd, hlen]
  rfl

theorem nest_run (L : HLib) (n : Nat) : ∀ k j, run L n ⟨nestHeap j, [some j]⟩ (List.replicate k (.list 0 [0])) =
    .ok ⟨nestHeap (j + k), [some (j + k)]⟩
  | 0, j => rfl
  | k + 1, j => by
    rw [List.replicate_succ, run, nest_step, Outcome.ok_bind, nest_run L n k (j + 1), show j + 1 + k = j + (k + 1) by omega]

theorem nest_built (L : HLib) (n k : Nat) : run L n (.start 1) (nestOps k) = .ok ⟨nestHeap k, [some k]⟩ := by
  have h0 : step L n (.start 1) (.list 0 []) = .ok ⟨nestHeap 0, [some 0]⟩ := rfl
  rw [nestOps, run, h0, Outcome.ok_bind, nest_run, Nat.zero_add]

/-- The nodes from `k` down. -/
def down : Nat → List Nat
  | 0 => [0]
  | k + 1 => (k + 1) :: down k

theorem down_head (k : Nat) : ∃ l, down k = k :: l := by cases k <;> exact ⟨_, rfl⟩

theorem down_length : ∀ k, (down k).length = k + 1
  | 0 => rfl
  | k + 1 => by rw [down, List.length_cons, down_length k]

theorem down_le : ∀ k : Nat, ∀ x : Nat, x ∈ down k → x ≤ k
  | 0, x, h => by rw [List.mem_singleton.mp h]; exact Nat.le_refl _
  | k + 1, x, h => by
    rcases List.mem_cons.mp h with rfl | h
    · exact Nat.le_refl _
    · have := down_le k x h; omega

theorem down_chain {m : Nat} : ∀ k, k ≤ m → Chain (nestHeap m) (down k)
  | 0, _ => trivial
  | k + 1, hk => by
    obtain ⟨l, e⟩ := down_head k
    have := down_chain (m := m) k (by omega)
    rw [down]
    rw [e] at this ⊢
    exact ⟨⟨_, nestHeap_get hk, Or.inr (by simp)⟩, this⟩

theorem nest_hash (L : Lib) (m : Nat) : ∀ n k, k ≤ m → (n ≤ k → hashH L (nestHeap m) n (some k) = .fuel) ∧
    (k < n → ∃ x, hashH L (nestHeap m) n (some k) = .ok x)
  | 0, k, hk => ⟨fun _ => rfl, fun h => by omega⟩
  | n + 1, 0, hk => ⟨fun h => by omega, fun _ => by
      simp only [hashH, deref, nestHeap_get hk, nestCell, Outcome.ok_bind, hashLoop]
      exact ⟨_, rfl⟩⟩
  | n + 1, k + 1, hk => by
    obtain ⟨h1, h2⟩ := nest_hash L m n k (by omega)
    simp only [hashH, deref, nestHeap_get hk, nestCell, Outcome.ok_bind, hashLoop]
    refine ⟨fun h => by rw [h1 (by omega)]; rfl, fun h => ?_⟩
    obtain ⟨x, hx⟩ := h2 (by omega)
    rw [hx]
    exact ⟨_, rfl⟩

theorem nest_eq (L : Lib) (m : Nat) : ∀ n k, k ≤ m → (n ≤ k → eqH L (nestHeap m) n (some k) (some k) = .fuel) ∧
    (k < n → eqH L (nestHeap m) n (some k) (some k) = .ok true)
  | 0, k, hk => ⟨fun _ => rfl, fun h => by omega⟩
  | n + 1, 0, hk => ⟨fun h => by omega, fun _ => by
      simp only [eqH, deref, nestHeap_get hk, nestCell, Outcome.ok_bind, eqLoop]
      rfl⟩
  | n + 1, k + 1, hk => by
    obtain ⟨h1, h2⟩ := nest_eq L m n k (by omega)
    simp only [eqH, deref, nestHeap_get hk, nestCell, Outcome.ok_bind, eqLoop, List.length_singleton, if_true]
    refine ⟨fun h => by rw [h1 (by omega)]; rfl, fun h => ?_⟩
    rw [h2 (by omega)]
    rfl

/-- C108 is false of the code: whatever stack there is, a program that makes a list and then, `room` times, puts the list into a new one –
each step of which takes no more stack than the first – leaves a node that can neither be destroyed nor hashed nor compared with itself with
stack for `room` nested calls, while with stack for one more all three work. -/
theorem C108_negation (L : HLib) (n room : Nat) : ∃ s, run L n (.start 1) (nestOps room) = .ok s ∧ s.vars = [some room] ∧
    (dropD room s.heap [some room] = .ub "stack overflow" ∧ ∃ g, dropD (room + 1) s.heap [some room] = .ok g) ∧
    (hashH L.toLib s.heap room (some room) = .fuel ∧ ∃ x, hashH L.toLib s.heap (room + 1) (some room) = .ok x) ∧
    eqH L.toLib s.heap room (some room) (some room) = .fuel ∧ eqH L.toLib s.heap (room + 1) (some room) (some room) = .ok true := by
  -- the order of map entries plays no role: there are no maps
  have hb := nest_built { L with hplace := fun es e => e :: es } n room
  have hO : Orderly { L with hplace := fun es e => e :: es } := fun _ _ => .refl _
  obtain ⟨l, e⟩ := down_head room
  have hlen := down_length room
  have hch := down_chain (m := room) room (Nat.le_refl _)
  have hle := down_le room
  rw [e] at hlen hch hle
  refine ⟨_, nest_built L n room, rfl, ⟨?_, ?_⟩, ⟨(nest_hash _ room room room (Nat.le_refl _)).1 (Nat.le_refl _),
    (nest_hash _ room (room + 1) room (Nat.le_refl _)).2 (Nat.lt_succ_self _)⟩,
    (nest_eq _ room room room (Nat.le_refl _)).1 (Nat.le_refl _), (nest_eq _ room (room + 1) room (Nat.le_refl _)).2 (Nat.lt_succ_self _)⟩
  · refine C108_destroy_overruns_partial hO n 1 (nestOps room) _ hb 0 room rfl room l hch (fun y hy => ?_) (by omega)
    obtain ⟨c, hc, h1⟩ := nestCell_one y
    exact ⟨c, by rw [nestHeap_get (hle y hy), hc], h1⟩
  · obtain ⟨g, hg, _⟩ := C108_destroy_partial hO n 1 (nestOps room) _ hb 0 room rfl (room + 1) (by
      have key : ∀ l a, a ≤ room → Chain (nestHeap room) (a :: l) → (a :: l).length ≤ a + 1 := by
        intro l
        induction l with
        | nil => intro a _ _; simp
        | cons b l ih =>
          intro a ha hc
          obtain ⟨c, hc1, hm⟩ := holds_iff.mp hc.1
          rw [nestHeap_get ha] at hc1
          cases a with
          | zero => simp [nestCell] at hc1; subst hc1; simp [Cell.refs, Body.refs] at hm
          | succ a =>
            simp [nestCell] at hc1
            subst hc1
            have hba : (b : Nat) = a := by simpa [Cell.refs, Body.refs] using hm
            have h := hc.2
            rw [show b = a from hba] at h
            have := ih a (Nat.le_of_succ_le ha) h
            simp only [List.length_cons] at this ⊢
            exact Nat.succ_le_succ this
      exact fun l hl => key l room (Nat.le_refl _) hl)
    exact ⟨g, hg⟩

/-- A list that holds a shared integer twice and a vector of it: the longest chain has three nodes. -/
example : ∃ s, run demoH 9 (.start 2) [.atom 0 (.int 7), .vec 1 [0], .list 1 [0, 0, 1], .null 0] = .ok s ∧
    s.vars = [none, some 2] ∧ dropD 2 s.heap [some 2] = .ub "stack overflow" ∧ (dropD 3 s.heap [some 2]).isOk = true :=
  ⟨⟨[some ⟨3, none, .atom (.int 7)⟩, some ⟨1, none, .vec [some 0]⟩, some ⟨1, none, .list [some 0, some 0, some 1]⟩], [none, some 2]⟩,
    by decide +kernel, rfl, by decide +kernel, by decide +kernel⟩

end Ab.EdnHeap.Stack
