import Verif.Proof.EdnHeap4
/-! Inserting into a map and finding again. -/
namespace Ab.EdnHeap

open Spec Edn

theorem Depth.le {h : Heap} {k j : Nat} {a : Addr} (d : Depth h k a) (hk : k ≤ j) : Depth h j a := by
  obtain ⟨i, rfl⟩ : ∃ i, j = k + i := ⟨j - k, by omega⟩
  clear hk
  induction i with
  | zero => exact d
  | succ i ih => exact ih.succ

theorem showsAll_depth {L : Lib} {h : Heap} : ∀ (ns : List Node) (ps : List Ptr), ShowsAll L h ps ns →
    (∀ n ∈ ns, ∀ p, Shows L h p n → ∃ k, PDepth h k p) → ∃ k, ∀ p ∈ ps, PDepth h k p
  | [], _, s, _ => by cases s; exact ⟨0, by simp⟩
  | n :: ns, _, s, ih => by
    cases s with
    | @cons p ps _ _ s1 s2 =>
      obtain ⟨k, hk⟩ := ih n (by simp) _ s1
      obtain ⟨j, hj⟩ := showsAll_depth ns ps s2 (fun m hm => ih m (by simp [hm]))
      refine ⟨max k j, fun q hq => ?_⟩
      have up : ∀ {i q}, PDepth h i q → i ≤ max k j → PDepth h (max k j) q := by
        intro i q hq hi
        cases q with
        | none => trivial
        | some b => exact Depth.le hq hi
      rcases List.mem_cons.mp hq with rfl | hq
      · exact up hk (by omega)
      · exact up (hj q hq) (by omega)

theorem showsEntries_depth {L : Lib} {h : Heap} : ∀ (ms : List (Node × Node)) (es : List HEntry), ShowsEntries L h es ms →
    (∀ m ∈ ms, (∀ p, Shows L h p m.1 → ∃ k, PDepth h k p) ∧ (∀ p, Shows L h p m.2 → ∃ k, PDepth h k p)) →
    ∃ k, ∀ e ∈ es, PDepth h k (some e.key) ∧ PDepth h k e.val
  | [], _, s, _ => by cases s; exact ⟨0, by simp⟩
  | m :: ms, _, s, ih => by
    cases s with
    | @cons e es kn vn _ s1 s2 _ s3 =>
      obtain ⟨k, hk⟩ := (ih (kn, vn) (by simp)).1 _ s1
      obtain ⟨k', hk'⟩ := (ih (kn, vn) (by simp)).2 _ s2
      obtain ⟨j, hj⟩ := showsEntries_depth ms es s3 (fun m hm => ih m (by simp [hm]))
      refine ⟨max (max k k') j, fun d hd => ?_⟩
      have up : ∀ {i q}, PDepth h i q → i ≤ max (max k k') j → PDepth h (max (max k k') j) q := by
        intro i q hq hi
        cases q with
        | none => trivial
        | some b => exact Depth.le hq hi
      rcases List.mem_cons.mp hd with rfl | hd
      · exact ⟨up hk (by omega), up hk' (by omega)⟩
      · exact ⟨up (hj d hd).1 (by omega), up (hj d hd).2 (by omega)⟩

theorem atom_depth {h : Heap} {a : Nat} {c : Cell} {x : Atom} (hc : h[a]? = some (some c)) (hb : c.body = .atom x) :
    Depth h 1 a := by
  intro b hp
  obtain ⟨d, hd, hm⟩ := part_iff.mp hp
  rw [hc] at hd; injection hd with hd; injection hd with hd; subst hd
  rw [hb] at hm; cases hm

/-- What shows a tree does not contain itself. -/
theorem shows_depth {L : Lib} {h : Heap} : ∀ (n : Node) (p : Ptr), Shows L h p n → ∃ k, PDepth h k p := by
  intro n
  induction n using Node.ind with
  | list ns ih =>
    intro p s
    generalize hn : Node.list ns = n at s
    cases s with
    | @atom a c x hc hb => exact ⟨1, atom_depth hc hb⟩
    | @list a c xs ns' hc hb hs =>
      injection hn with hn; subst hn
      obtain ⟨k, hk⟩ := showsAll_depth ns xs hs ih
      refine ⟨k + 1, fun b hp => ?_⟩
      obtain ⟨d, hd, hm⟩ := part_iff.mp hp
      rw [hc] at hd; injection hd with hd; injection hd with hd; subst hd
      rw [hb] at hm; exact hk _ hm
    | vec => cases hn
    | map => cases hn
  | vec ns ih =>
    intro p s
    generalize hn : Node.vec ns = n at s
    cases s with
    | @atom a c x hc hb => exact ⟨1, atom_depth hc hb⟩
    | @vec a c xs ns' hc hb hs =>
      injection hn with hn; subst hn
      obtain ⟨k, hk⟩ := showsAll_depth ns xs hs ih
      refine ⟨k + 1, fun b hp => ?_⟩
      obtain ⟨d, hd, hm⟩ := part_iff.mp hp
      rw [hc] at hd; injection hd with hd; injection hd with hd; subst hd
      rw [hb] at hm; exact hk _ hm
    | list => cases hn
    | map => cases hn
  | map ms ih =>
    intro p s
    generalize hn : Node.map ms = n at s
    cases s with
    | @atom a c x hc hb => exact ⟨1, atom_depth hc hb⟩
    | @map a c es ms' hc hb hs =>
      injection hn with hn; subst hn
      obtain ⟨k, hk⟩ := showsEntries_depth ms es hs ih
      refine ⟨k + 1, fun b hp => ?_⟩
      obtain ⟨d, hd, hm⟩ := part_iff.mp hp
      rw [hc] at hd; injection hd with hd; injection hd with hd; subst hd
      rw [hb] at hm
      obtain ⟨e, he, hm⟩ := List.mem_flatMap.mp hm
      simp only [List.mem_cons, List.not_mem_nil, or_false] at hm
      rcases hm with hm | hm
      · injection hm with hm; subst hm; exact (hk e he).1
      · have := (hk e he).2; rw [← hm] at this; exact this
    | list => cases hn
    | vec => cases hn
  | _ =>
    intro p s
    rcases shows_inv s with ⟨a, c, x, rfl, hc, hb, hn⟩ | ⟨_, hn⟩ | ⟨_, hn⟩ | ⟨_, hn⟩
    · exact ⟨1, atom_depth hc hb⟩
    all_goals cases hn

theorem depth_within {h : Heap} {a b : Addr} (w : Within h a b) : ∀ {k : Nat}, Depth h k a → Depth h k b := by
  induction w with
  | refl => exact id
  | step h1 _ ih =>
    intro k d
    cases k with
    | zero => exact d.elim
    | succ k => exact (ih (d _ h1)).succ

theorem depth_acyclic {h : Heap} {a b : Addr} (hp : Part h a b) (hw : Within h b a) : ∀ k, ¬ Depth h k a
  | 0, d => d
  | k + 1, d => depth_acyclic hp hw k (depth_within hw (d b hp))

/-- The node has the same body in both heaps. -/
def SameBody (h h' : Heap) (z : Addr) : Prop :=
  ∀ c : Cell, h[z]? = some (some c) → ∃ c' : Cell, h'[z]? = some (some c') ∧ c'.body = c.body

/-- All that is within a pointer has the same body in both heaps. -/
def Framed (h h' : Heap) (p : Ptr) : Prop := ∀ b, p = some b → ∀ z, Within h b z → SameBody h h' z

theorem framed_part {h h' : Heap} {a : Nat} {c : Cell} (hc : h[a]? = some (some c)) (f : Framed h h' (some a)) {q : Ptr}
    (hq : q ∈ c.body.refs) : Framed h h' q := by
  rintro b rfl z hz
  exact f a rfl z (.step (part_iff.mpr ⟨c, hc, hq⟩) hz)

theorem showsAll_frame {L : Lib} {h h' : Heap} : ∀ (ns : List Node) (ps : List Ptr), ShowsAll L h ps ns →
    (∀ p ∈ ps, Framed h h' p) → (∀ n ∈ ns, ∀ p, Framed h h' p → Shows L h p n → Shows L h' p n) → ShowsAll L h' ps ns
  | [], _, s, _, _ => by cases s; exact .nil
  | n :: ns, _, s, hf, ih => by
    cases s with
    | cons s1 s2 =>
      exact .cons (ih n (by simp) _ (hf _ (by simp)) s1)
        (showsAll_frame ns _ s2 (fun p hp => hf p (by simp [hp])) (fun m hm => ih m (by simp [hm])))

theorem showsEntries_frame {L : Lib} {h h' : Heap} : ∀ (ms : List (Node × Node)) (es : List HEntry), ShowsEntries L h es ms →
    (∀ e ∈ es, Framed h h' (some e.key) ∧ Framed h h' e.val) →
    (∀ m ∈ ms, (∀ p, Framed h h' p → Shows L h p m.1 → Shows L h' p m.1) ∧
      (∀ p, Framed h h' p → Shows L h p m.2 → Shows L h' p m.2)) → ShowsEntries L h' es ms
  | [], _, s, _, _ => by cases s; exact .nil
  | m :: ms, _, s, hf, ih => by
    cases s with
    | @cons e es kn vn _ s1 s2 hh s3 =>
      exact .cons ((ih (kn, vn) (by simp)).1 _ (hf e (by simp)).1 s1) ((ih (kn, vn) (by simp)).2 _ (hf e (by simp)).2 s2) hh
        (showsEntries_frame ms es s3 (fun p hp => hf p (by simp [hp])) (fun m hm => ih m (by simp [hm])))

/-- What a pointer shows depends only on the bodies within it. -/
theorem shows_frame {L : Lib} {h h' : Heap} : ∀ (n : Node) (p : Ptr), Framed h h' p → Shows L h p n → Shows L h' p n := by
  intro n
  have atoms : ∀ {a : Nat} {c : Cell} {x : Atom}, h[a]? = some (some c) → c.body = .atom x → Framed h h' (some a) →
      Shows L h' (some a) x.node := by
    intro a c x hc hb hf
    obtain ⟨c', hc', hb'⟩ := hf a rfl a .refl c hc
    exact .atom hc' (hb'.trans hb)
  induction n using Node.ind with
  | list ns ih =>
    intro p hf s
    generalize hn : Node.list ns = n at s
    cases s with
    | @atom a c x hc hb => exact atoms hc hb hf
    | @list a c xs ns' hc hb hs =>
      injection hn with hn; subst hn
      obtain ⟨c', hc', hb'⟩ := hf a rfl a .refl c hc
      exact .list hc' (hb'.trans hb) (showsAll_frame ns xs hs (fun q hq => framed_part hc hf (by rw [hb]; exact hq)) ih)
    | vec => cases hn
    | map => cases hn
  | vec ns ih =>
    intro p hf s
    generalize hn : Node.vec ns = n at s
    cases s with
    | @atom a c x hc hb => exact atoms hc hb hf
    | @vec a c xs ns' hc hb hs =>
      injection hn with hn; subst hn
      obtain ⟨c', hc', hb'⟩ := hf a rfl a .refl c hc
      exact .vec hc' (hb'.trans hb) (showsAll_frame ns xs hs (fun q hq => framed_part hc hf (by rw [hb]; exact hq)) ih)
    | list => cases hn
    | map => cases hn
  | map ms ih =>
    intro p hf s
    generalize hn : Node.map ms = n at s
    cases s with
    | @atom a c x hc hb => exact atoms hc hb hf
    | @map a c es ms' hc hb hs =>
      injection hn with hn; subst hn
      obtain ⟨c', hc', hb'⟩ := hf a rfl a .refl c hc
      refine .map hc' (hb'.trans hb) (showsEntries_frame ms es hs (fun e he => ?_) ih)
      exact ⟨framed_part hc hf (by rw [hb]; exact List.mem_flatMap.mpr ⟨e, he, by simp⟩),
        framed_part hc hf (by rw [hb]; exact List.mem_flatMap.mpr ⟨e, he, by simp⟩)⟩
    | list => cases hn
    | vec => cases hn
  | _ =>
    intro p hf s
    rcases shows_inv s with ⟨a, c, x, rfl, hc, hb, hn⟩ | ⟨_, hn⟩ | ⟨_, hn⟩ | ⟨_, hn⟩
    · rw [hn]; exact atoms hc hb hf
    all_goals cases hn

theorem entries_mem {L : Lib} {h : Heap} : ∀ {es : List HEntry} {ms : List (Node × Node)}, ShowsEntries L h es ms →
    ∀ e ∈ es, ∃ k v, (k, v) ∈ ms ∧ Shows L h (some e.key) k ∧ Shows L h e.val v ∧ Node.hash L k = .ok e.hash
  | [], _, _, e, he => by cases he
  | d :: es, _, s, e, he => by
    cases s with
    | @cons _ _ kn vn _ s1 s2 hh s3 =>
      rcases List.mem_cons.mp he with rfl | he
      · exact ⟨kn, vn, by simp, s1, s2, hh⟩
      · obtain ⟨k, v, hm, x⟩ := entries_mem s3 e he
        exact ⟨k, v, by simp [hm], x⟩

/-- Looking for a key among entries none of which match but one. -/
theorem findLoop_only {f : Ptr → Ptr → Outcome Bool} {x : U64} {k : Ptr} {d : HEntry} (hd : d.hash = x)
    (ht : f k (some d.key) = .ok true) : ∀ (es : List HEntry), d ∈ es →
    (∀ e ∈ es, e = d ∨ e.hash ≠ x ∨ f k (some e.key) = .ok false) → findLoop f x k es = .ok (some d)
  | [], h, _ => by cases h
  | e :: es, hm, h => by
    simp only [findLoop]
    rcases h e (by simp) with rfl | h1 | h1
    · rw [if_pos hd, ht]; rfl
    · rw [if_neg h1]
      refine findLoop_only hd ht es ?_ (fun e' he' => h e' (by simp [he']))
      rcases List.mem_cons.mp hm with rfl | hm
      · exact absurd hd h1
      · exact hm
    · have hne : d ∈ es := by
        rcases List.mem_cons.mp hm with rfl | hm
        · rw [ht] at h1; cases h1
        · exact hm
      have ih := findLoop_only hd ht es hne (fun e' he' => h e' (by simp [he']))
      split
      · rw [h1]; exact ih
      · exact ih

theorem var_ok {s : State} {x : Nat} {p : Ptr} (h : s.vars[x]? = some p) : s.var x = .ok p := by simp only [State.var, h]

/-- Insertion of a new key. -/
theorem insert_new {L : HLib} {n : Nat} {s : State} (i : Inv s.heap s.vars) {m k v : Nat} {a ka : Addr} {vp : Ptr}
    {c : Cell} {es : List HEntry} {x : U64} (hm : s.vars[m]? = some (some a)) (hk : s.vars[k]? = some (some ka))
    (hv : s.vars[v]? = some vp) (hc : s.heap[a]? = some (some c)) (hb : c.body = .map es)
    (hx : hashH L.toLib s.heap n (some ka) = .ok x)
    (hr : findLoop (eqH L.toLib s.heap n) x (some ka) es = .ok none) :
    ∃ h' : Heap, step L n s (.insert m k v) = .ok ⟨h', s.vars⟩ ∧
      (∃ c' : Cell, h'[a]? = some (some c') ∧ c'.body = .map (L.hplace es ⟨x, ka, vp⟩)) ∧
      ∀ z, z ≠ a → SameBody s.heap h' z := by
  obtain ⟨h1, e1, i1, b1⟩ := retainAll_spec [some ka, vp] i (fun p hp => by
    left
    simp only [List.mem_cons, List.not_mem_nil, or_false] at hp
    rcases hp with rfl | rfl
    · exact List.mem_of_getElem? hk
    · exact List.mem_of_getElem? hv)
  obtain ⟨c1, hc1, eb, em⟩ := bare_deref b1.symm hc
  refine ⟨setBody h1 a c1 (.map (L.hplace es ⟨x, ka, vp⟩)), ?_, ⟨{ c1 with body := _ }, ?_, rfl⟩, ?_⟩
  · simp only [step, var_ok hm, var_ok hk, var_ok hv, Outcome.ok_bind, addr, deref_some hc, hb, entries, hx, hr, e1,
      deref_some hc1]
  · unfold setBody; rw [get_set hc1, if_pos rfl]
  · intro z hz d hd
    obtain ⟨d1, hd1, e2, _⟩ := bare_deref b1.symm hd
    refine ⟨d1, ?_, e2⟩
    unfold setBody; rw [get_set hc1, if_neg hz]; exact hd1

theorem find_ok {L : HLib} {n : Nat} {s : State} (i : Inv s.heap s.vars) {x m k : Nat} {a : Addr} {kp : Ptr}
    {c : Cell} {es : List HEntry} {d : HEntry} {y : U64} {old : Ptr} (hx : s.vars[x]? = some old)
    (hm : s.vars[m]? = some (some a)) (hk : s.vars[k]? = some kp) (hc : s.heap[a]? = some (some c)) (hb : c.body = .map es)
    (hy : hashH L.toLib s.heap n kp = .ok y) (hr : findLoop (eqH L.toLib s.heap n) y kp es = .ok (some d)) :
    ∃ h', step L n s (.find x m k) = .ok ⟨h', s.vars.set x d.val⟩ ∧ Sub h' s.heap := by
  have hd : d ∈ es := findLoop_mem hr
  have hmem : d.val ∈ s.heap.refs := mem_refs hc (List.mem_append_left _ (by
    rw [hb]; exact List.mem_flatMap.mpr ⟨d, hd, by simp⟩))
  obtain ⟨h1, e1, i1, b1⟩ := retain_spec i (Or.inr (Or.inl hmem))
  obtain ⟨h', e, _, hs⟩ := drop_spec (h := h1) (w := [old]) (r := s.vars.set x d.val) (i1.perm (fun a => by
    have := set_count hx d.val (some a)
    rw [List.count_append]
    simp only [List.count_cons, List.count_nil] at *; omega))
  refine ⟨h', ?_, hs.1.trans ?_, fun z cz hz => ?_⟩
  · simp only [step, var_ok hm, var_ok hk, Outcome.ok_bind, deref_some hc, hb, entries, findH, hy, hr, e1, State.assign,
      var_ok (s := ⟨h1, s.vars⟩) hx, e]
  · have := congrArg List.length b1
    simpa [bare] using this
  · obtain ⟨d1, hd1, e2, e3⟩ := hs.2 z cz hz
    obtain ⟨d2, hd2, e4, e5⟩ := bare_deref b1 hd1
    exact ⟨d2, hd2, e4.trans e2, e5.trans e3⟩

theorem assign_vars {s s' : State} {x : Nat} {p : Ptr} (h : s.assign x p = .ok s') : s'.vars.length = s.vars.length := by
  unfold State.assign at h
  obtain ⟨_, _, h⟩ := Outcome.bind_eq_ok.mp h
  obtain ⟨_, _, h⟩ := Outcome.bind_eq_ok.mp h
  injection h with h; subst h; simp

theorem fresh_vars {s s' : State} {x : Nat} {b : Body} (h : s.fresh x b = .ok s') : s'.vars.length = s.vars.length := by
  unfold State.fresh at h
  obtain ⟨_, _, h⟩ := Outcome.bind_eq_ok.mp h
  exact (assign_vars h :)

theorem step_vars {L : HLib} {n : Nat} {s s' : State} {o : Op} (h : step L n s o = .ok s') :
    s'.vars.length = s.vars.length := by
  cases o with
  | atom x a => exact fresh_vars h
  | list x ys => obtain ⟨_, _, h⟩ := Outcome.bind_eq_ok.mp h; exact fresh_vars h
  | vec x ys => obtain ⟨_, _, h⟩ := Outcome.bind_eq_ok.mp h; exact fresh_vars h
  | map x => exact fresh_vars h
  | copy x y =>
    obtain ⟨_, _, h⟩ := Outcome.bind_eq_ok.mp h
    obtain ⟨_, _, h⟩ := Outcome.bind_eq_ok.mp h
    exact (assign_vars h :)
  | null x => exact assign_vars h
  | push c y =>
    obtain ⟨_, _, h⟩ := Outcome.bind_eq_ok.mp h
    obtain ⟨_, _, h⟩ := Outcome.bind_eq_ok.mp h
    obtain ⟨_, _, h⟩ := Outcome.bind_eq_ok.mp h
    obtain ⟨_, _, h⟩ := Outcome.bind_eq_ok.mp h
    obtain ⟨_, _, h⟩ := Outcome.bind_eq_ok.mp h
    obtain ⟨_, _, h⟩ := Outcome.bind_eq_ok.mp h
    injection h with h; subst h; rfl
  | setAt c i y =>
    obtain ⟨_, _, h⟩ := Outcome.bind_eq_ok.mp h
    obtain ⟨_, _, h⟩ := Outcome.bind_eq_ok.mp h
    obtain ⟨_, _, h⟩ := Outcome.bind_eq_ok.mp h
    obtain ⟨_, _, h⟩ := Outcome.bind_eq_ok.mp h
    obtain ⟨_, _, h⟩ := Outcome.bind_eq_ok.mp h
    split at h
    · cases h
    · obtain ⟨_, _, h⟩ := Outcome.bind_eq_ok.mp h
      obtain ⟨_, _, h⟩ := Outcome.bind_eq_ok.mp h
      obtain ⟨_, _, h⟩ := Outcome.bind_eq_ok.mp h
      injection h with h; subst h; rfl
  | getAt x c i =>
    obtain ⟨_, _, h⟩ := Outcome.bind_eq_ok.mp h
    obtain ⟨_, _, h⟩ := Outcome.bind_eq_ok.mp h
    obtain ⟨_, _, h⟩ := Outcome.bind_eq_ok.mp h
    split at h
    · cases h
    · obtain ⟨_, _, h⟩ := Outcome.bind_eq_ok.mp h
      exact (assign_vars h :)
  | clear c =>
    obtain ⟨_, _, h⟩ := Outcome.bind_eq_ok.mp h
    obtain ⟨_, _, h⟩ := Outcome.bind_eq_ok.mp h
    obtain ⟨_, _, h⟩ := Outcome.bind_eq_ok.mp h
    obtain ⟨_, _, h⟩ := Outcome.bind_eq_ok.mp h
    obtain ⟨_, _, h⟩ := Outcome.bind_eq_ok.mp h
    injection h with h; subst h; rfl
  | setAtom c b =>
    obtain ⟨_, _, h⟩ := Outcome.bind_eq_ok.mp h
    obtain ⟨_, _, h⟩ := Outcome.bind_eq_ok.mp h
    obtain ⟨_, _, h⟩ := Outcome.bind_eq_ok.mp h
    split at h
    · injection h with h; subst h; rfl
    · cases h
  | setMeta c y =>
    obtain ⟨_, _, h⟩ := Outcome.bind_eq_ok.mp h
    obtain ⟨_, _, h⟩ := Outcome.bind_eq_ok.mp h
    obtain ⟨_, _, h⟩ := Outcome.bind_eq_ok.mp h
    obtain ⟨_, _, h⟩ := Outcome.bind_eq_ok.mp h
    obtain ⟨_, _, h⟩ := Outcome.bind_eq_ok.mp h
    obtain ⟨_, _, h⟩ := Outcome.bind_eq_ok.mp h
    obtain ⟨_, _, h⟩ := Outcome.bind_eq_ok.mp h
    obtain ⟨_, _, h⟩ := Outcome.bind_eq_ok.mp h
    injection h with h; subst h; rfl
  | getMeta x c =>
    obtain ⟨_, _, h⟩ := Outcome.bind_eq_ok.mp h
    obtain ⟨_, _, h⟩ := Outcome.bind_eq_ok.mp h
    obtain ⟨_, _, h⟩ := Outcome.bind_eq_ok.mp h
    exact (assign_vars h :)
  | insert m k v =>
    obtain ⟨_, _, h⟩ := Outcome.bind_eq_ok.mp h
    obtain ⟨_, _, h⟩ := Outcome.bind_eq_ok.mp h
    obtain ⟨_, _, h⟩ := Outcome.bind_eq_ok.mp h
    obtain ⟨_, _, h⟩ := Outcome.bind_eq_ok.mp h
    obtain ⟨_, _, h⟩ := Outcome.bind_eq_ok.mp h
    obtain ⟨_, _, h⟩ := Outcome.bind_eq_ok.mp h
    obtain ⟨_, _, h⟩ := Outcome.bind_eq_ok.mp h
    obtain ⟨r, _, h⟩ := Outcome.bind_eq_ok.mp h
    cases r with
    | some _ => injection h with h; subst h; rfl
    | none =>
      obtain ⟨_, _, h⟩ := Outcome.bind_eq_ok.mp h
      obtain ⟨_, _, h⟩ := Outcome.bind_eq_ok.mp h
      obtain ⟨_, _, h⟩ := Outcome.bind_eq_ok.mp h
      injection h with h; subst h; rfl
  | find x m k =>
    obtain ⟨_, _, h⟩ := Outcome.bind_eq_ok.mp h
    obtain ⟨_, _, h⟩ := Outcome.bind_eq_ok.mp h
    obtain ⟨_, _, h⟩ := Outcome.bind_eq_ok.mp h
    obtain ⟨_, _, h⟩ := Outcome.bind_eq_ok.mp h
    obtain ⟨r, _, h⟩ := Outcome.bind_eq_ok.mp h
    cases r with
    | none => cases h
    | some e =>
      obtain ⟨_, _, h⟩ := Outcome.bind_eq_ok.mp h
      exact (assign_vars h :)

theorem run_vars {L : HLib} {n : Nat} : ∀ (os : List Op) {s s' : State}, run L n s os = .ok s' →
    s'.vars.length = s.vars.length
  | [], s, s', h => by injection h with h; subst h; rfl
  | o :: os, s, s', h => by
    obtain ⟨s1, h1, h⟩ := Outcome.bind_eq_ok.mp h
    exact (run_vars os h).trans (step_vars h1)

/-- A node that shows a tree is not within its parts. -/
theorem shows_not_within {L : Lib} {h : Heap} {a b : Addr} {n : Node} (s : Shows L h (some a) n) (hp : Part h a b) :
    ¬ Within h b a := by
  intro hw
  obtain ⟨k, hk⟩ := shows_depth n _ s
  exact depth_acyclic hp hw k hk

end Ab.EdnHeap
