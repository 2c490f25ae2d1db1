import Verif.Proof.EdnHeap3
/-! Hashing and comparing end on nodes that do not contain themselves. -/
namespace Ab.EdnHeap

open Spec Edn

theorem part_iff {h : Heap} {a b : Addr} : Part h a b ↔ ∃ c : Cell, h[a]? = some (some c) ∧ some b ∈ c.body.refs := by
  unfold Part
  refine exists_congr fun c => and_congr_right fun _ => ?_
  cases c.body with
  | atom _ => simp [Body.refs]
  | list xs => exact Iff.rfl
  | vec xs => exact Iff.rfl
  | map es =>
    simp only [Body.refs, List.mem_flatMap, List.mem_cons, List.not_mem_nil, or_false]
    refine exists_congr fun e => and_congr_right fun _ => or_congr ?_ eq_comm
    constructor
    · rintro rfl; rfl
    · intro h; injection h with h; exact h.symm

/-- Every chain of parts from `a` has fewer than `k` steps. -/
def Depth (h : Heap) : Nat → Addr → Prop
  | 0, _ => False
  | k + 1, a => ∀ b, Part h a b → Depth h k b

theorem deep_chain {h : Heap} : ∀ (k : Nat) (a : Addr), ¬ Depth h k a → ∃ l : List Nat, l.length = k ∧
    (∀ y ∈ l, y < h.length ∧ Within h a y) ∧ l.Pairwise (fun x y => ∃ b, Part h x b ∧ Within h b y)
  | 0, a, _ => ⟨[], rfl, by simp, .nil⟩
  | k + 1, a, hd => by
    simp only [Depth, Classical.not_forall] at hd
    obtain ⟨b, hb, hd⟩ := hd
    obtain ⟨l, h1, h2, h3⟩ := deep_chain k b hd
    obtain ⟨c, hc, _⟩ := part_iff.mp hb
    refine ⟨a :: l, by simp [h1], fun y hy => ?_, List.pairwise_cons.mpr ⟨fun y hy => ⟨b, hb, (h2 y hy).2⟩, h3⟩⟩
    rcases List.mem_cons.mp hy with rfl | hy
    · exact ⟨(List.getElem?_eq_some_iff.mp hc).1, .refl⟩
    · exact ⟨(h2 y hy).1, .step hb (h2 y hy).2⟩

theorem finite_depth {h : Heap} {a : Addr} (hf : Finite h a) : Depth h (h.length + 1) a := by
  apply Classical.byContradiction
  intro hd
  obtain ⟨l, h1, h2, h3⟩ := deep_chain _ a hd
  have hn : l.Nodup := by
    refine List.Pairwise.imp_of_mem (fun {x y} hx _ hxy e => ?_) h3
    obtain ⟨b, hb, hw⟩ := hxy
    exact hf x (h2 x hx).2 b hb (e ▸ hw)
  have := nodup_le h.length l hn (fun y hy => (h2 y hy).1)
  omega

theorem Depth.succ {h : Heap} : ∀ {k : Nat} {a : Addr}, Depth h k a → Depth h (k + 1) a
  | 0, _, d => d.elim
  | _ + 1, _, d => fun b hb => Depth.succ (d b hb)

/-! ### Enough fuel -/

/-- Not out of fuel. -/
def NF {α} (x : Outcome α) : Prop := x ≠ .fuel

theorem NF.bind {α β} {x : Outcome α} {f : α → Outcome β} (hx : NF x) (hf : ∀ v, x = .ok v → NF (f v)) : NF (x >>= f) := by
  cases x with
  | ok v => exact hf v rfl
  | fuel => exact absurd rfl hx
  | _ => intro e; cases e

theorem deref_nf (h : Heap) (p : Ptr) : NF (deref h p) := by
  unfold deref
  split
  · exact nofun
  · split <;> exact nofun

theorem hashLoop_nf {f : Ptr → Outcome U64} : ∀ (ps : List Ptr) (x : U64), (∀ p ∈ ps, NF (f p)) → NF (hashLoop f ps x)
  | [], _, _ => nofun
  | p :: ps, x, h => (h p (by simp)).bind fun y _ => hashLoop_nf ps _ (fun q hq => h q (by simp [hq]))

/-- A pointer whose chains of parts have fewer than `k` steps. -/
def PDepth (h : Heap) (k : Nat) : Ptr → Prop
  | none => True
  | some a => Depth h k a

theorem atomHash_nf (L : Lib) (a : Atom) : NF (atomHash L a) := by cases a <;> exact nofun

theorem pdepth_part {h : Heap} {k : Nat} {p : Ptr} {c : Cell} (hp : PDepth h (k + 1) p) (hd : deref h p = .ok c) :
    ∀ q ∈ c.body.refs, PDepth h k q := by
  obtain ⟨a, rfl, hc⟩ := deref_ok hd
  intro q hq
  cases q with
  | none => trivial
  | some b => exact hp b (part_iff.mpr ⟨c, hc, hq⟩)

theorem hashH_nf (L : Lib) (h : Heap) : ∀ (k n : Nat) (p : Ptr), k < n → PDepth h k p → NF (hashH L h n p)
  | _, 0, _, hk, _ => by omega
  | 0, n + 1, p, hk, hp => by
    cases p with
    | none => simp only [hashH, deref]; exact nofun
    | some a => exact hp.elim
  | k + 1, n + 1, p, hk, hp => by
    have ih := fun q hq => hashH_nf L h k n q (by omega) hq
    simp only [hashH]
    refine (deref_nf h p).bind fun c hc => ?_
    have hpart := pdepth_part hp hc
    revert hpart
    cases c.body with
    | atom a => exact fun _ => atomHash_nf L a
    | list xs => exact fun hpart => hashLoop_nf xs _ fun q hq => ih q (hpart q hq)
    | vec xs => exact fun hpart => hashLoop_nf xs _ fun q hq => ih q (hpart q hq)
    | map es => exact fun hpart => hashLoop_nf _ _ fun q hq => ih q (hpart q hq)

theorem eqLoop_nf {f : Ptr → Ptr → Outcome Bool} : ∀ (xs ys : List Ptr), (∀ x ∈ xs, ∀ y, NF (f x y)) →
    NF (eqLoop f xs ys)
  | [], _, _ => by simp only [eqLoop]; exact nofun
  | _ :: _, [], _ => by simp only [eqLoop]; exact nofun
  | x :: xs, y :: ys, h => by
    simp only [eqLoop]
    refine (h x (by simp) y).bind fun b _ => ?_
    split
    · exact eqLoop_nf xs ys fun z hz => h z (by simp [hz])
    · exact nofun

theorem findLoop_nf {f : Ptr → Ptr → Outcome Bool} (x : U64) (k : Ptr) (hf : ∀ y, NF (f k y)) : ∀ (es : List HEntry),
    NF (findLoop f x k es)
  | [] => nofun
  | e :: es => by
    simp only [findLoop]
    split
    · refine (hf _).bind fun b _ => ?_
      split
      · exact nofun
      · exact findLoop_nf x k hf es
    · exact findLoop_nf x k hf es

theorem mapLoop_nf {g : Ptr → Outcome U64} {f : Ptr → Ptr → Outcome Bool} (fs : List HEntry) : ∀ (es : List HEntry),
    (∀ e ∈ es, NF (g (some e.key)) ∧ (∀ y, NF (f (some e.key) y)) ∧ ∀ y, NF (f e.val y)) → NF (mapLoop g f fs es)
  | [], _ => nofun
  | e :: es, h => by
    obtain ⟨h1, h2, h3⟩ := h e (by simp)
    simp only [mapLoop]
    refine h1.bind fun x _ => (findLoop_nf x _ h2 fs).bind fun r _ => ?_
    cases r with
    | none => exact nofun
    | some e' =>
      refine (h3 _).bind fun b _ => ?_
      split
      · exact mapLoop_nf fs es fun d hd => h d (by simp [hd])
      · exact nofun

theorem eqH_nf (L : Lib) (h : Heap) : ∀ (k n : Nat) (p q : Ptr), k < n → PDepth h k p → NF (eqH L h n p q)
  | _, 0, _, _, hk, _ => by omega
  | 0, n + 1, p, q, hk, hp => by
    cases p with
    | none => simp only [eqH, deref]; exact nofun
    | some a => exact hp.elim
  | k + 1, n + 1, p, q, hk, hp => by
    have ih := fun x y hx => eqH_nf L h k n x y (by omega) hx
    simp only [eqH]
    refine (deref_nf h p).bind fun c hc => (deref_nf h q).bind fun d _ => ?_
    have hpart := pdepth_part hp hc
    revert hpart
    cases c.body with
    | atom a => intro _; cases d.body <;> exact nofun
    | list xs =>
      intro hpart
      cases d.body with
      | list ys => simp only; split; exact eqLoop_nf xs ys (fun x hx y => ih x y (hpart x hx)); exact nofun
      | _ => exact nofun
    | vec xs =>
      intro hpart
      cases d.body with
      | vec ys => simp only; split; exact eqLoop_nf xs ys (fun x hx y => ih x y (hpart x hx)); exact nofun
      | _ => exact nofun
    | map es =>
      intro hpart
      cases d.body with
      | map fs =>
        simp only
        split
        · refine mapLoop_nf fs es fun e he => ?_
          have hk1 : PDepth h k (some e.key) := hpart _ (List.mem_flatMap.mpr ⟨e, he, by simp⟩)
          have hv1 : PDepth h k e.val := hpart _ (List.mem_flatMap.mpr ⟨e, he, by simp⟩)
          exact ⟨hashH_nf L h k n _ (by omega) hk1, fun y => ih _ y hk1, fun y => ih _ y hv1⟩
        · exact nofun
      | _ => exact nofun

/-! ### More fuel changes nothing -/

/-- The second outcome is the first, unless that was out of fuel. -/
def Le {α} (x y : Outcome α) : Prop := x ≠ .fuel → y = x

theorem Le.refl {α} (x : Outcome α) : Le x x := fun _ => rfl

theorem Le.bind {α β} {x y : Outcome α} {f g : α → Outcome β} (hx : Le x y) (hf : ∀ v, Le (f v) (g v)) :
    Le (x >>= f) (y >>= g) := by
  intro h
  cases x with
  | fuel => exact absurd rfl h
  | ok v => rw [hx nofun]; exact hf v h
  | _ => rw [hx nofun]; rfl

theorem Le.ite {α} {c : Prop} [Decidable c] {x y x' y' : Outcome α} (h1 : Le x x') (h2 : Le y y') :
    Le (if c then x else y) (if c then x' else y') := by split <;> assumption

theorem hashLoop_le {f g : Ptr → Outcome U64} (h : ∀ p, Le (f p) (g p)) : ∀ (ps : List Ptr) (x : U64),
    Le (hashLoop f ps x) (hashLoop g ps x)
  | [], _ => .refl _
  | p :: ps, _ => (h p).bind fun _ => hashLoop_le h ps _

theorem hashH_le (L : Lib) (h : Heap) : ∀ (n : Nat) (p : Ptr), Le (hashH L h n p) (hashH L h (n + 1) p)
  | 0, _ => fun e => absurd rfl e
  | n + 1, p => by
    have ih := hashH_le L h n
    simp only [hashH.eq_2]
    refine (Le.refl _).bind fun c => ?_
    cases c.body with
    | atom a => exact .refl _
    | list xs => exact hashLoop_le ih _ _
    | vec xs => exact hashLoop_le ih _ _
    | map es => exact hashLoop_le ih _ _

theorem eqLoop_le {f g : Ptr → Ptr → Outcome Bool} (h : ∀ p q, Le (f p q) (g p q)) : ∀ (xs ys : List Ptr),
    Le (eqLoop f xs ys) (eqLoop g xs ys)
  | [], _ => by simp only [eqLoop]; exact .refl _
  | _ :: _, [] => by simp only [eqLoop]; exact .refl _
  | x :: xs, y :: ys => by
    simp only [eqLoop]
    exact (h x y).bind fun _ => .ite (eqLoop_le h xs ys) (.refl _)

theorem findLoop_le {f g : Ptr → Ptr → Outcome Bool} (h : ∀ p q, Le (f p q) (g p q)) (x : U64) (k : Ptr) :
    ∀ (es : List HEntry), Le (findLoop f x k es) (findLoop g x k es)
  | [] => .refl _
  | e :: es => by
    simp only [findLoop]
    exact .ite ((h _ _).bind fun _ => .ite (.refl _) (findLoop_le h x k es)) (findLoop_le h x k es)

theorem mapLoop_le {f g : Ptr → Ptr → Outcome Bool} {f' g' : Ptr → Outcome U64} (h' : ∀ p, Le (f' p) (g' p))
    (h : ∀ p q, Le (f p q) (g p q)) (fs : List HEntry) : ∀ (es : List HEntry), Le (mapLoop f' f fs es) (mapLoop g' g fs es)
  | [] => .refl _
  | e :: es => by
    simp only [mapLoop]
    refine (h' _).bind fun x => (findLoop_le h x _ fs).bind fun r => ?_
    cases r with
    | none => exact .refl _
    | some e' => exact (h _ _).bind fun _ => .ite (mapLoop_le h' h fs es) (.refl _)

theorem eqH_le (L : Lib) (h : Heap) : ∀ (n : Nat) (p q : Ptr), Le (eqH L h n p q) (eqH L h (n + 1) p q)
  | 0, _, _ => fun e => absurd rfl e
  | n + 1, p, q => by
    have ih := eqH_le L h n
    simp only [eqH.eq_2]
    refine (Le.refl _).bind fun c => (Le.refl _).bind fun d => ?_
    cases c.body <;> cases d.body <;> simp only
    case list.list => exact .ite (eqLoop_le ih _ _) (.refl _)
    case vec.vec => exact .ite (eqLoop_le ih _ _) (.refl _)
    case map.map => exact .ite (mapLoop_le (hashH_le L h n) ih _ _) (.refl _)
    all_goals exact .refl _

theorem le_answers {α} {f : Nat → Outcome α} (h : ∀ n, Le (f n) (f (n + 1))) {n : Nat} (hn : f n ≠ .fuel) :
    Answers f (f n) := by
  refine ⟨n, fun m hm => ?_⟩
  obtain ⟨d, rfl⟩ : ∃ d, m = n + d := ⟨m - n, by omega⟩
  clear hm
  induction d with
  | zero => rfl
  | succ d ih => rw [← ih, ← Nat.add_assoc]; exact h _ (ih ▸ hn)

/-! ### Nodes from which nothing is missing show a tree -/

theorem within_part {h : Heap} {a b : Addr} (hb : Part h a b) : Within h a b := .step hb .refl

theorem finite_part {h : Heap} {a b : Addr} (hf : Finite h a) (hb : Part h a b) : Finite h b :=
  fun z hz => hf z (.step hb hz)

theorem whole_part {L : Lib} {h : Heap} {a b : Addr} (hw : Whole L h a) (hb : Part h a b) : Whole L h b :=
  fun z hz => hw z (.step hb hz)

theorem showsAll_exists {L : Lib} {h : Heap} : ∀ (xs : List Ptr), none ∉ xs → (∀ b, some b ∈ xs → ∃ n, Shows L h (some b) n) →
    ∃ ns, ShowsAll L h xs ns
  | [], _, _ => ⟨[], .nil⟩
  | p :: ps, h1, h2 => by
    obtain ⟨ns, hs⟩ := showsAll_exists ps (fun e => h1 (by simp [e])) (fun b hb => h2 b (by simp [hb]))
    cases p with
    | none => exact absurd (by simp) h1
    | some b =>
      obtain ⟨n, hn⟩ := h2 b (by simp)
      exact ⟨n :: ns, .cons hn hs⟩

theorem answers_unique {α} {f : Nat → Outcome α} {r r' : Outcome α} (h : Answers f r) (h' : Answers f r') : r = r' := by
  obtain ⟨N, h⟩ := h
  obtain ⟨M, h'⟩ := h'
  rw [← h (max N M) (by omega), ← h' (max N M) (by omega)]

theorem showsEntries_exists {L : Lib} {h : Heap} : ∀ (es : List HEntry),
    (∀ e ∈ es, e.val ≠ none ∧ Answers (fun n => hashH L h n (some e.key)) (.ok e.hash)) →
    (∀ e ∈ es, (∃ n, Shows L h (some e.key) n) ∧ ∀ b, e.val = some b → ∃ n, Shows L h (some b) n) →
    ∃ ms, ShowsEntries L h es ms
  | [], _, _ => ⟨[], .nil⟩
  | e :: es, h1, h2 => by
    obtain ⟨ms, hs⟩ := showsEntries_exists es (fun d hd => h1 d (by simp [hd])) (fun d hd => h2 d (by simp [hd]))
    obtain ⟨⟨k, hk⟩, h3⟩ := h2 e (by simp)
    obtain ⟨h4, h5⟩ := h1 e (by simp)
    cases hv : e.val with
    | none => exact absurd hv h4
    | some b =>
      obtain ⟨v, hv'⟩ := h3 b hv
      exact ⟨(k, v) :: ms, .cons hk (hv ▸ hv') (answers_unique (hash_shows L k _ hk) h5) hs⟩

theorem shows_exists (L : Lib) {h : Heap} : ∀ (k : Nat) (a : Addr), Depth h k a → Whole L h a → ∃ n, Shows L h (some a) n
  | 0, _, d, _ => d.elim
  | k + 1, a, d, w => by
    have ih := fun b hb => shows_exists L k b (d b hb) (whole_part w hb)
    obtain ⟨c, hc, hm⟩ := w a .refl
    cases hb : c.body with
    | atom x => exact ⟨_, .atom hc hb⟩
    | list xs =>
      rw [hb] at hm
      obtain ⟨ns, hs⟩ := showsAll_exists (L := L) (h := h) xs hm (fun b hx => ih b (part_iff.mpr ⟨c, hc, by rw [hb]; exact hx⟩))
      exact ⟨_, .list hc hb hs⟩
    | vec xs =>
      rw [hb] at hm
      obtain ⟨ns, hs⟩ := showsAll_exists (L := L) (h := h) xs hm (fun b hx => ih b (part_iff.mpr ⟨c, hc, by rw [hb]; exact hx⟩))
      exact ⟨_, .vec hc hb hs⟩
    | map es =>
      rw [hb] at hm
      have hin : ∀ e ∈ es, some e.key ∈ c.body.refs ∧ e.val ∈ c.body.refs := by
        intro e he
        rw [hb]
        exact ⟨List.mem_flatMap.mpr ⟨e, he, by simp⟩, List.mem_flatMap.mpr ⟨e, he, by simp⟩⟩
      obtain ⟨ms, hs⟩ := showsEntries_exists (L := L) (h := h) es hm (fun e he =>
        ⟨ih e.key (part_iff.mpr ⟨c, hc, (hin e he).1⟩), fun b hb' => ih b (part_iff.mpr ⟨c, hc, hb' ▸ (hin e he).2⟩)⟩)
      exact ⟨_, .map hc hb hs⟩

end Ab.EdnHeap
