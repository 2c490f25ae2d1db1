import Verif.Proof.EdnHeap5
import Verif.Props.EdnHeap2
/-! C88: maps of shared nodes. -/
namespace Ab.EdnHeap

open Spec Edn

theorem small_keys {n : Node} (h : SmallMaps n) : SmallKeys n := by
  intro es e he hm fs hf
  have trans : ∀ {x y z : Node}, Spec.Sub y z → Spec.Sub x y → Spec.Sub x z := by
    intro x y z h1
    induction h1 with
    | refl => exact id
    | list h _ ih => exact fun s => .list h (ih s)
    | vec h _ ih => exact fun s => .vec h (ih s)
    | key h _ ih => exact fun s => .key h (ih s)
    | val h _ ih => exact fun s => .val h (ih s)
  exact h fs (trans he (.key hm hf))

theorem key_same {L : Lib} (hL : Lawful L) {k k' : Node} {x y : U64} (bk : Built L k) (bk' : Built L k') (fk : NaNFree k)
    (sk : SmallMaps k) (hx : Node.hash L k = .ok x) (hy : Node.hash L k' = .ok y) :
    (sameHash L k k' && Node.eq L k k') = true ↔ Same k k' := by
  rw [Bool.and_eq_true]
  constructor
  · exact fun h => (C37_equality_is_structural_partial L hL k k' bk bk' fk (small_keys sk)).mp h.2
  · intro h
    have he := (C37_equality_is_structural_partial L hL k k' bk bk' fk (small_keys sk)).mpr h
    refine ⟨?_, he⟩
    have := C38_equal_nodes_hash_alike_partial L hL k k' bk bk' sk he
    rw [hx, hy] at this; injection this with this
    unfold sameHash; rw [hx, hy, this]; simp

/-- C88, the part that holds: looking up a key that can be built, without NaN and without larger maps inside, in a
map none of whose keys was changed, always comes back; it finds nothing exactly if no key of the map is the same
data, and otherwise the value of a key that is. -/
theorem C88_lookup_partial (L : Lib) (hL : Lawful L) (h : Heap) (es : List HEntry) (ms : List (Node × Node)) (kp : Ptr)
    (k : Node) (x : U64) (hs : ShowsEntries L h es ms) (hk : Shows L h kp k) (bk : Built L k) (bm : ∀ m ∈ ms, Built L m.1)
    (fk : NaNFree k) (sk : SmallMaps k) (hx : Node.hash L k = .ok x) :
    ∃ r, Answers (fun n => findH L h n es kp) (.ok r) ∧
      match r with
      | none => ∀ m ∈ ms, ¬ Same k m.1
      | some e => e ∈ es ∧ ∃ m ∈ ms, Same k m.1 ∧ Shows L h e.val m.2 := by
  obtain ⟨r, h1, h2⟩ := findLoop_shows L (eq_shows L k) hk hx ms es hs
  have hash : ∀ m ∈ ms, ∃ y, Node.hash L m.1 = .ok y := by
    clear h2 h1 bm
    induction ms generalizing es with
    | nil => simp
    | cons m ms ih =>
      cases hs with
      | cons _ _ hh s3 =>
        intro m' hm'
        rcases List.mem_cons.mp hm' with rfl | hm'
        · exact ⟨_, hh⟩
        · exact ih _ s3 m' hm'
  refine ⟨r, ?_, ?_⟩
  · refine ((hash_shows L k _ hk).and h1).imp fun n hn => ?_
    simp only [findH, hn.1, hx, Outcome.ok_bind, hn.2]
  · cases hf : ms.find? (fun m => sameHash L k m.1 && Node.eq L k m.1) with
    | none =>
      rw [hf] at h2; simp only at h2; subst h2
      intro m hm hsame
      obtain ⟨y, hy⟩ := hash m hm
      have := List.find?_eq_none.mp hf m hm
      exact this ((key_same hL bk (bm m hm) fk sk hx hy).mpr hsame)
    | some m =>
      rw [hf] at h2; obtain ⟨e, rfl, he, hv⟩ := h2
      have hm := List.mem_of_find?_eq_some hf
      obtain ⟨y, hy⟩ := hash m hm
      exact ⟨he, m, hm, (key_same hL bk (bm m hm) fk sk hx hy).mp (by
        have := List.find?_some hf; simpa using this), hv⟩

/-- C88, the part that holds, about insertion: after any program, inserting a key no key of the map is the same
data as, and that does not contain the map, adds the entry, and looking the key up at once gives the value that
was inserted; nothing but the map changes. -/
theorem C88_insert_then_find_partial (L : HLib) (hO : Orderly L) (hL : Lawful L.toLib) (d vars : Nat) (os : List Op)
    (s : State) (hrun : run L d (.start vars) os = .ok s) (m k v x : Nat) (a ka : Addr) (vp : Ptr) (hmv : x < vars)
    (hm : s.vars[m]? = some (some a)) (hk : s.vars[k]? = some (some ka)) (hv : s.vars[v]? = some vp)
    (ms : List (Node × Node)) (t : Node) (y : U64) (sm : Shows L.toLib s.heap (some a) (.map ms))
    (st : Shows L.toLib s.heap (some ka) t) (bt : Built L.toLib t) (bm : ∀ e ∈ ms, Built L.toLib e.1) (ft : NaNFree t)
    (kt : SmallMaps t) (hy : Node.hash L.toLib t = .ok y) (new : ∀ e ∈ ms, ¬ Same t e.1)
    (hno : ¬ Within s.heap ka a) :
    ∃ N, ∀ n, N ≤ n → ∃ s1 s2 : State, step L n s (.insert m k v) = .ok s1 ∧ s1.vars = s.vars ∧
      (∃ (c c' : Cell) (es es' : List HEntry), s.heap[a]? = some (some c) ∧ c.body = .map es ∧
        s1.heap[a]? = some (some c') ∧ c'.body = .map es' ∧ es'.Perm (⟨y, ka, vp⟩ :: es)) ∧
      (∀ (b : Addr) (c : Cell), b ≠ a → s.heap[b]? = some (some c) →
        ∃ c' : Cell, s1.heap[b]? = some (some c') ∧ c'.body = c.body) ∧
      step L n s1 (.find x m k) = .ok s2 ∧ s2.vars = s.vars.set x vp := by
  have i := run_fine hO d os (start_inv vars)
  rw [hrun] at i
  change Inv s.heap s.vars at i
  have hlen : s.vars.length = vars := by
    have := run_vars os hrun
    simpa [State.start] using this
  generalize hn : Node.map ms = tm at sm
  cases sm with
  | @atom _ _ z _ _ => cases z <;> cases hn
  | list => cases hn
  | vec => cases hn
  | @map _ c es ms' hc hb hs =>
    injection hn with hn; subst hn
    have sm' : Shows L.toLib s.heap (some a) (.map ms) := .map hc hb hs
    obtain ⟨r, h1, h2⟩ := findLoop_shows L.toLib (eq_shows L.toLib t) st hy ms es hs
    have hash : ∀ e ∈ ms, (sameHash L.toLib t e.1 && Node.eq L.toLib t e.1) = false := by
      intro e he
      rw [Bool.eq_false_iff]
      intro hh
      exact new e he ((C37_equality_is_structural_partial L.toLib hL t e.1 bt (bm e he) ft (small_keys kt)).mp
        (Bool.and_eq_true _ _ ▸ hh).2)
    have hnone : ms.find? (fun m => sameHash L.toLib t m.1 && Node.eq L.toLib t m.1) = none :=
      List.find?_eq_none.mpr fun e he => by simp [hash e he]
    rw [hnone] at h2; simp only at h2; subst h2
    -- what the keys show after the insertion
    have rest : ∀ h' : Heap, (∀ z, z ≠ a → SameBody s.heap h' z) →
        Ev (fun n => hashH L.toLib h' n (some ka) = .ok y ∧ eqH L.toLib h' n (some ka) (some ka) = .ok true ∧
          ∀ e ∈ es, e.hash ≠ y ∨ eqH L.toLib h' n (some ka) (some e.key) = .ok false) := by
      intro h' hh
      have sk' : Shows L.toLib h' (some ka) t := by
        refine shows_frame t _ (fun b hb' z hz => hh z ?_) st
        injection hb' with hb'; subst hb'
        rintro rfl; exact hno hz
      have hself : Node.eq L.toLib t t = true :=
        (C37_equality_is_an_equivalence_partial L.toLib hL t t t bt bt bt).1 ft
      have e3 : Ev (fun n => ∀ e ∈ es, e.hash ≠ y ∨ eqH L.toLib h' n (some ka) (some e.key) = .ok false) := by
        have each : ∀ e ∈ es, Ev (fun n => e.hash ≠ y ∨ eqH L.toLib h' n (some ka) (some e.key) = .ok false) := by
          intro e he
          obtain ⟨k', v', hm', s1, _, hh'⟩ := entries_mem hs e he
          have hpart : Part s.heap a e.key := part_iff.mpr ⟨c, hc, by
            rw [hb]; exact List.mem_flatMap.mpr ⟨e, he, by simp⟩⟩
          have s1' : Shows L.toLib h' (some e.key) k' := by
            refine shows_frame k' _ (fun b hb' z hz => hh z ?_) s1
            injection hb' with hb'; subst hb'
            rintro rfl; exact shows_not_within sm' hpart hz
          refine (eq_shows L.toLib t _ _ k' sk' s1').imp fun n hn => ?_
          by_cases hey : e.hash = y
          · right
            rw [hn]
            have h3 := hash (k', v') hm'
            have h4 : sameHash L.toLib t k' = true := by unfold sameHash; rw [hy, hh', hey]; simp
            simp only [h4, Bool.true_and] at h3
            rw [h3]
          · exact Or.inl hey
        clear hs hb h1
        induction es with
        | nil => exact Ev.of fun _ => by simp
        | cons e es ih =>
          refine ((each e (by simp)).and (ih (fun d hd => each d (by simp [hd])))).imp fun n hn d hd => ?_
          rcases List.mem_cons.mp hd with rfl | hd
          · exact hn.1
          · exact hn.2 d hd
      refine ((hash_shows L.toLib t _ sk').and ((eq_shows L.toLib t _ _ t sk' sk').and e3)).imp fun n hn => ?_
      exact ⟨hn.1.trans hy, hn.2.1.trans (by rw [hself]), hn.2.2⟩
    obtain ⟨N, hN⟩ := (hash_shows L.toLib t _ st).and h1
    obtain ⟨h', q1, ⟨c', hc', hb'⟩, q3⟩ := insert_new i hm hk hv hc hb ((hN N (Nat.le_refl _)).1.trans hy)
      (hN N (Nat.le_refl _)).2
    obtain ⟨M, hM⟩ := rest h' q3
    refine ⟨max N M, fun n hn => ?_⟩
    have hNn := hN n (by omega)
    have hMn := hM n (by omega)
    have same : step L n s (.insert m k v) = step L N s (.insert m k v) := by
      have hN0 := hN N (Nat.le_refl _)
      simp only [step, var_ok hm, var_ok hk, var_ok hv, Outcome.ok_bind, addr, deref_some hc, hb, entries,
        hNn.1, hNn.2, hN0.1, hN0.2, hy]
    have step1 : step L n s (.insert m k v) = .ok ⟨h', s.vars⟩ := same.trans q1
    have i1 := step_fine hO n i (.insert m k v)
    rw [step1] at i1
    obtain ⟨old, hold⟩ : ∃ old, s.vars[x]? = some old :=
      ⟨_, List.getElem?_eq_getElem (by omega)⟩
    have perm := hO es ⟨y, ka, vp⟩
    have hfind : findLoop (eqH L.toLib h' n) y (some ka) (L.hplace es ⟨y, ka, vp⟩) = .ok (some ⟨y, ka, vp⟩) := by
      refine findLoop_only (f := eqH L.toLib h' n) (d := ⟨y, ka, vp⟩) rfl hMn.2.1 _ (perm.mem_iff.mpr (by simp)) fun e he => ?_
      rcases List.mem_cons.mp (perm.mem_iff.mp he) with rfl | he
      · exact Or.inl rfl
      · exact Or.inr (hMn.2.2 e he)
    obtain ⟨h2, q4, _⟩ := find_ok (s := ⟨h', s.vars⟩) i1 hold hm hk hc' hb' hMn.1 hfind
    exact ⟨⟨h', s.vars⟩, _, step1, rfl, ⟨c, c', es, _, hc, hb, hc', hb', perm⟩, fun b cb hb hcb => q3 b hb cb hcb, q4, rfl⟩

/-- C88, the part that holds: inserting a key that some key of the map is the same data as changes nothing. -/
theorem C88_insert_existing_partial (L : HLib) (hL : Lawful L.toLib) (s : State) (m k v : Nat) (a : Addr) (kp vp : Ptr)
    (hm : s.vars[m]? = some (some a)) (hk : s.vars[k]? = some kp) (hv : s.vars[v]? = some vp)
    (ms : List (Node × Node)) (t : Node) (y : U64) (sm : Shows L.toLib s.heap (some a) (.map ms))
    (st : Shows L.toLib s.heap kp t) (bt : Built L.toLib t) (bm : ∀ e ∈ ms, Built L.toLib e.1) (ft : NaNFree t)
    (kt : SmallMaps t) (hy : Node.hash L.toLib t = .ok y) (old : ∃ e ∈ ms, Same t e.1) :
    Answers (fun n => step L n s (.insert m k v)) (.ok s) := by
  generalize hn : Node.map ms = tm at sm
  cases sm with
  | @atom _ _ z _ _ => cases z <;> cases hn
  | list => cases hn
  | vec => cases hn
  | @map _ c es ms' hc hb hs =>
    injection hn with hn; subst hn
    obtain ⟨r, ⟨N, hN⟩, hr⟩ := C88_lookup_partial L.toLib hL s.heap es ms kp t y hs st bt bm ft kt hy
    obtain ⟨M, hM⟩ := hash_shows L.toLib t _ st
    cases r with
    | none => obtain ⟨e, he, h1⟩ := old; exact absurd h1 (hr e he)
    | some e =>
      refine ⟨max N M, fun n hn => ?_⟩
      have h1 := hN n (by omega)
      have h2 := hM n (by omega)
      simp only [findH, h2, hy, Outcome.ok_bind] at h1
      simp only [step, var_ok hm, var_ok hk, var_ok hv, Outcome.ok_bind, addr, deref_some hc, hb, entries, h2, hy, h1]

/-- The hash of `(1)`. -/
def keyHash : U64 := mix (mix HASH_SEED 8#64) (hash2 2#64 (demo.hashLong 1))

/-- The map `{(1) 2}`, its key and value in variables 0 and 1, another key `(1)` in 3 and `nil` in 4. -/
def mapped : State :=
  ⟨[some ⟨2, none, .atom (.int 1)⟩, some ⟨2, none, .list [some 0]⟩, some ⟨2, none, .atom (.int 2)⟩,
    some ⟨1, none, .map [⟨keyHash, 1, some 2⟩]⟩, some ⟨1, none, .list [some 0]⟩,
    some ⟨1, none, .atom .nil⟩], [some 1, some 2, some 3, some 4, some 5]⟩

def mappedProg : List Op :=
  [.atom 0 (.int 1), .list 3 [0], .atom 1 (.int 2), .map 2, .insert 2 3 1, .list 4 [0], .copy 0 3, .copy 3 4, .atom 4 .nil]

theorem mapped_run : run demoH 9 (.start 5) mappedProg = .ok mapped := by decide +kernel

theorem mapped_key {a : Addr} (h : a = 1 ∨ a = 4) : Shows demo mapped.heap (some a) (.list [.int 1]) := by
  have i0 : Shows demo mapped.heap (some 0) (.int 1) := Shows.atom (x := .int 1) (c := ⟨2, none, .atom (.int 1)⟩) rfl rfl
  rcases h with rfl | rfl <;> exact .list rfl rfl (.cons i0 .nil)

theorem mapped_map : Shows demo mapped.heap (some 3) (.map [(.list [.int 1], .int 2)]) :=
  .map rfl rfl (.cons (mapped_key (Or.inl rfl)) (Shows.atom (x := .int 2) (c := ⟨2, none, .atom (.int 2)⟩) rfl rfl) rfl .nil)

theorem key_built : Built demo (.list [.int 1]) := .list (fun x hx => by simp at hx; subst hx; exact .int 1)

theorem list_sub {m : Node} (h : Spec.Sub m (.list [.int 1])) : m = .list [.int 1] ∨ m = .int 1 := by
  cases h with
  | refl => exact Or.inl rfl
  | list hm hs =>
    simp at hm; subst hm
    cases hs; exact Or.inr rfl

theorem key_plain : NaNFree (.list [.int 1]) ∧ SmallMaps (.list [.int 1]) := by
  constructor
  · intro v hv; rcases list_sub hv with h | h <;> cases h
  · intro es hv; rcases list_sub hv with h | h <;> cases h

theorem nil_plain : NaNFree .nil ∧ SmallMaps .nil := by
  constructor
  · intro v hv; cases hv
  · intro es hv; cases hv

/-- Another list with the same element finds the value; `nil` is not there and can be inserted. -/
example : ∃ r, Answers (fun n => findH demo mapped.heap n [⟨keyHash, 1, some 2⟩] (some 4))
      (.ok r) ∧
    match r with
    | none => ∀ m ∈ [(Node.list [.int 1], Node.int 2)], ¬ Same (.list [.int 1]) m.1
    | some e => e ∈ [(⟨keyHash, 1, some 2⟩ : HEntry)] ∧
      ∃ m ∈ [(Node.list [.int 1], Node.int 2)], Same (.list [.int 1]) m.1 ∧ Shows demo mapped.heap e.val m.2 :=
  C88_lookup_partial demo demo_lawful mapped.heap _ _ (some 4) (.list [.int 1]) _
    (.cons (mapped_key (Or.inl rfl)) (Shows.atom (x := .int 2) (c := ⟨2, none, .atom (.int 2)⟩) rfl rfl) rfl .nil)
    (mapped_key (Or.inr rfl)) key_built (fun m hm => by simp at hm; subst hm; exact key_built) key_plain.1 key_plain.2 rfl

example : run demoH 9 mapped [.find 4 2 3] = .ok ⟨[some ⟨2, none, .atom (.int 1)⟩, some ⟨2, none, .list [some 0]⟩,
    some ⟨3, none, .atom (.int 2)⟩, some ⟨1, none, .map [⟨keyHash, 1, some 2⟩]⟩,
    some ⟨1, none, .list [some 0]⟩, none], [some 1, some 2, some 3, some 4, some 2]⟩ := by decide +kernel

example : Answers (fun n => step demoH n mapped (.insert 2 3 0)) (.ok mapped) :=
  C88_insert_existing_partial demoH demo_lawful mapped 2 3 0 3 (some 4) (some 1) rfl rfl rfl _ _ _ mapped_map
    (mapped_key (Or.inr rfl)) key_built (fun m hm => by simp at hm; subst hm; exact key_built) key_plain.1 key_plain.2 rfl
    ⟨(.list [.int 1], .int 2), by simp, .list (.cons (.int 1) .nil)⟩

example : ∃ N, ∀ n, N ≤ n → ∃ s1 s2 : State, step demoH n mapped (.insert 2 4 0) = .ok s1 ∧ s1.vars = mapped.vars ∧
      (∃ (c c' : Cell) (es es' : List HEntry), mapped.heap[3]? = some (some c) ∧ c.body = .map es ∧
        s1.heap[3]? = some (some c') ∧ c'.body = .map es' ∧ es'.Perm (⟨demo.hashKind 0#64, 5, some 1⟩ :: es)) ∧
      (∀ (b : Addr) (c : Cell), b ≠ 3 → mapped.heap[b]? = some (some c) →
        ∃ c' : Cell, s1.heap[b]? = some (some c') ∧ c'.body = c.body) ∧
      step demoH n s1 (.find 1 2 4) = .ok s2 ∧ s2.vars = mapped.vars.set 1 (some 1) :=
  C88_insert_then_find_partial demoH demoH_orderly demo_lawful 9 5 mappedProg mapped mapped_run 2 4 0 1 3 5 (some 1)
    (by decide) rfl rfl rfl _ .nil _ mapped_map (Shows.atom (x := .nil) (c := ⟨1, none, .atom .nil⟩) rfl rfl) .nil
    (fun m hm => by simp at hm; subst hm; exact key_built) nil_plain.1 nil_plain.2 rfl
    (fun m hm => by simp at hm; subst hm; intro h; cases h)
    (by
      intro hw
      cases hw with
      | step h1 _ =>
        obtain ⟨c, hc, hm⟩ := part_iff.mp h1
        cases hc
        simp [Body.refs] at hm)

/-- C88 is false of the code: a list is inserted as a key and then extended; looked up by the very same object it
is not found, although the entry is in the map; an equal list made afresh is not found either. The same lookup
before the extension finds it. -/
theorem C88_negation :
    (∃ s, run demoH 9 (.start 4) [.list 0 [], .atom 1 (.int 7), .map 2, .insert 2 0 1, .find 3 2 0] = .ok s ∧
      s.vars[3]? = some (some 1)) ∧
    run demoH 9 (.start 4) [.list 0 [], .atom 1 (.int 7), .map 2, .insert 2 0 1, .push 0 1, .find 3 2 0] =
      .throw "out_of_range" ∧
    run demoH 9 (.start 4) [.list 0 [], .atom 1 (.int 7), .map 2, .insert 2 0 1, .push 0 1, .list 3 [1], .find 3 2 3] =
      .throw "out_of_range" ∧
    ∃ s, run demoH 9 (.start 4) [.list 0 [], .atom 1 (.int 7), .map 2, .insert 2 0 1, .push 0 1] = .ok s ∧
      ∃ (c : Cell) (e : HEntry), s.heap[2]? = some (some c) ∧ c.body = .map [e] ∧ e.key = 0 ∧ e.val = some 1 := by
  refine ⟨⟨⟨[some ⟨2, none, .list []⟩, some ⟨3, none, .atom (.int 7)⟩,
      some ⟨1, none, .map [⟨mix HASH_SEED 8#64, 0, some 1⟩]⟩], [some 0, some 1, some 2, some 1]⟩, by decide +kernel, rfl⟩,
    ?_, ?_, ⟨⟨[some ⟨2, none, .list [some 1]⟩, some ⟨3, none, .atom (.int 7)⟩,
      some ⟨1, none, .map [⟨mix HASH_SEED 8#64, 0, some 1⟩]⟩], [some 0, some 1, some 2, none]⟩, by decide +kernel,
      _, _, rfl, rfl, rfl, rfl⟩⟩
  · decide +kernel
  · decide +kernel

end Ab.EdnHeap
